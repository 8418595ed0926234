import Verif.Props.Tag

/-!
# Commits: C11, C12, C13 (commits), C14, C32, C33, C34
-/

namespace Verif.Props

open Verif Spec

/-! ## Helpers -/

theorem parse_commit_signed (d body : Bytes) (z : Int) (e : Err) (N : Nat) (hd : Signed d z)
    (h1 : -(2 ^ 63 : Int) ≤ z) (h2 : z < 2 ^ 63) :
    parseObject (σ := Stream) ⟨b!"commit " ++ d ++ NUL :: body, e, N⟩ =
      commitRun Commit.zero ⟨body, e, N⟩ >>= fun c => .ok (.commit c) := by
  have : b!"commit " ++ d ++ NUL :: body = b!"commit" ++ SP :: (d ++ NUL :: body) := by simp
  rw [this, parse_commit, decodeCommit_eq, readNum_signed d _ _ N z hd h1 h2]
  rfl

theorem parse_commit_framed {body out : Bytes} (h : Framed b!"commit" body out) (e : Err) (N : Nat)
    (hl : body.length < 2 ^ 63) :
    parseObject (σ := Stream) ⟨out, e, N⟩ =
      commitRun Commit.zero ⟨body, e, N⟩ >>= fun c => .ok (.commit c) := by
  obtain ⟨d, hd, rfl⟩ := h
  rw [← parse_commit_signed d body body.length e N (canonical_signed hd) (by omega) (by omega)]
  simp

theorem prefix_line (p l r : Bytes) (hp : LF ∉ p) (h : p <+: l ++ LF :: r) : p <+: l := by
  induction p generalizing l with
  | nil => exact List.nil_prefix
  | cons c p ih =>
    cases l with
    | nil =>
      obtain ⟨x, hx⟩ := h
      simp only [List.cons_append, List.nil_append, List.cons.injEq] at hx
      exact absurd hx.1.symm (by simp at hp; exact fun h => hp.1 h)
    | cons d l =>
      rw [List.cons_append, List.cons_prefix_cons] at h
      rw [List.cons_prefix_cons]
      exact ⟨h.1, ih l (by simp at hp; simp [hp.2]) h.2⟩

/-- A link as decoders make them: to a git object, or missing. -/
def GitOrNil (l : Link) : Prop := IsGitLink l ∨ l = .nil

theorem linkSha_gitOrNil {l : Link} (h : GitOrNil l) : linkSha l = .ok (digest l) := by
  rcases h with h | rfl
  · exact linkSha_git h
  · rfl

/-- The encoder writes `commitBody` for every commit with an author and a
committer whose links are git links. -/
theorem encCommit_text (c : Commit) (a k : PersonInfo) (ht : GitOrNil c.tree)
    (hp : ∀ p ∈ c.parents, IsGitLink p) (ha : c.author = some a) (hk : c.committer = some k)
    (hm : ∀ t ∈ c.mergetag, IsGitLink t.object) :
    encCommit c = .ok (withHeader b!"commit" (commitBody c a k)) := by
  unfold encCommit
  rw [linkSha_gitOrNil ht, encParents_eq _ hp, ha, hk, encMergeTags_eq _ hm]
  simp only [Res.bind_ok, personOrPanic]
  congr 2
  unfold commitBody encOther
  cases he : c.encoding <;> cases hg : c.signature <;>
    simp [unlines, hex_eq, personText_eq, encodingText, sigText, sigBegin, sigEnd]

theorem foldl_tree (is : List Item) (N : Nat) (h : ItemsOk N is) (c : Commit) (hc : GitOrNil c.tree) :
    GitOrNil (is.foldl Item.apply c).tree := by
  induction is generalizing c with
  | nil => exact hc
  | cons i is ih =>
    refine ih h.2.2 _ ?_
    cases i with
    | tree x sha => exact .inl ⟨sha, h.1.2, rfl⟩
    | _ => exact hc

theorem foldl_parents (is : List Item) (c : Commit) :
    (is.foldl Item.apply c).parents = c.parents ++ is.filterMap fun
      | .parent _ sha => some (gitLink sha)
      | _ => none := by
  induction is generalizing c with
  | nil => simp
  | cons i is ih => rw [List.foldl_cons, ih]; cases i <;> simp [Item.apply]

theorem foldl_mergetag (is : List Item) (c : Commit) :
    (is.foldl Item.apply c).mergetag = c.mergetag ++ is.filterMap fun
      | .mergetag _ t => some t
      | _ => none := by
  induction is generalizing c with
  | nil => simp
  | cons i is ih => rw [List.foldl_cons, ih]; cases i <;> simp [Item.apply]

theorem foldl_other (is : List Item) (c : Commit) :
    (is.foldl Item.apply c).other = c.other ++ is.filterMap fun
      | .other l => some l
      | _ => none := by
  induction is generalizing c with
  | nil => simp
  | cons i is ih => rw [List.foldl_cons, ih]; cases i <;> simp [Item.apply]

theorem itemsOk_mem (is : List Item) (N : Nat) (h : ItemsOk N is) : ∀ i ∈ is, i.Ok N := by
  induction is with
  | nil => simp
  | cons i is ih =>
    intro j hj
    rcases List.mem_cons.1 hj with rfl | hj
    · exact h.1
    · exact ih h.2.2 j hj

/-! ### Examples -/

def sampleMerge : Tag :=
  { object := gitLink (List.replicate 20 9), typ := b!"commit", tag := b!"v0.9", tagger := samplePerson,
    message := b!" merged\n  \n -----BEGIN PGP SIGNATURE-----\n" }

theorem sampleMerge_ok (N : Nat) (hN : 4096 ≤ N) : MergeTagOk N sampleMerge :=
  ⟨⟨_, by decide, rfl⟩, headerLine_mk (by decide) hN, headerLine_mk (by decide) hN, samplePerson_ok,
    headerLine_mk (by decide) hN,
    ⟨[b!" merged", b!"  ", b!" -----BEGIN PGP SIGNATURE-----"], by decide, by
      intro l hl
      simp only [List.mem_cons, List.not_mem_nil, or_false] at hl
      rcases hl with rfl | rfl | rfl <;> exact ⟨by decide, headerLine_mk (by decide) hN⟩⟩⟩

def sampleSig : Bytes := b!" Version: GnuPG v1\n \n abcd\n"

theorem sampleSig_ok (N : Nat) (hN : 4096 ≤ N) : SigOk N sampleSig :=
  ⟨b!" Version: GnuPG v1", [b!" ", b!" abcd"], by decide, by
      intro l hl
      simp only [List.mem_cons, List.not_mem_nil, or_false] at hl
      rcases hl with rfl | rfl | rfl <;> exact headerLine_mk (by decide) hN, by decide,
    .inr (.inl ⟨b!"GnuPG v1", by decide⟩)⟩

def sampleCommit : Commit :=
  { tree := gitLink (List.replicate 20 1)
    parents := [gitLink (List.replicate 20 2), gitLink (List.replicate 20 3), gitLink (List.replicate 20 2)]
    message := b!"subject\n\nbody\r\n\x00"
    author := some samplePerson
    committer := some { samplePerson with date := b!"5", timezone := b!"" }
    encoding := some b!"latin1"
    signature := some sampleSig
    mergetag := [sampleMerge, sampleMerge]
    other := [b!"HG:extra x", b!" continued"] }

theorem sampleCommit_ok (N : Nat) (hN : 4096 ≤ N) :
    CommitOk N sampleCommit samplePerson { samplePerson with date := b!"5", timezone := b!"" } where
  tree := ⟨_, by decide, rfl⟩
  parents := by
    intro p hp
    simp only [sampleCommit, List.mem_cons, List.not_mem_nil, or_false] at hp
    rcases hp with rfl | rfl | rfl <;> exact ⟨_, by decide, rfl⟩
  authorIs := rfl
  authorOk := samplePerson_ok
  authorLine := headerLine_mk (by decide) hN
  committerIs := rfl
  committerOk := ⟨by decide, (not_infix_iff _ _).2 (by decide), (not_infix_iff _ _).2 (by decide),
    (not_infix_iff _ _).2 (by decide), by decide, by decide, by decide⟩
  committerLine := headerLine_mk (by decide) hN
  encoding := by
    intro e he
    simp only [sampleCommit, Option.some.injEq] at he
    subst he
    exact headerLine_mk (by decide) hN
  mergetag := by
    intro t ht
    simp only [sampleCommit, List.mem_cons, List.not_mem_nil, or_false] at ht
    rcases ht with rfl | rfl <;> exact sampleMerge_ok N hN
  signature := by
    intro g hg
    simp only [sampleCommit, Option.some.injEq] at hg
    subst hg
    exact sampleSig_ok N hN
  other := by
    intro l hl
    simp only [sampleCommit, List.mem_cons, List.not_mem_nil, or_false] at hl
    rcases hl with rfl | rfl <;>
      exact ⟨headerLine_mk (by decide) hN, by decide, by decide⟩
  afterTag := by simp [sampleCommit]

/-! ## C11 Commit round trip -/

/-- Every commit that fits the format is encoded, and decoding the result gives
the commit back. -/
theorem commit_roundtrip (N : Nat) (hN : 4096 ≤ N) (c : Commit) (a k : PersonInfo) (h : CommitOk N c a k)
    (hlen : (commitBody c a k).length < 2 ^ 63) :
    ∃ out, encObj (.commit c) = .ok out ∧ Framed b!"commit" (commitBody c a k) out ∧
      parseObject (σ := Stream) ⟨out, .eof, N⟩ = .ok (.commit c) := by
  refine ⟨_, encCommit_eq c a k N h, framed_withHeader _ _, ?_⟩
  rw [parse_commit_framed (framed_withHeader _ _) _ _ hlen, commitRun_body c a k N hN h]
  rfl

example : CommitOk 4096 sampleCommit samplePerson { samplePerson with date := b!"5", timezone := b!"" } ∧
    (commitBody sampleCommit samplePerson { samplePerson with date := b!"5", timezone := b!"" }).length < 2 ^ 63 :=
  ⟨sampleCommit_ok 4096 (by omega), by decide +kernel⟩

/-! ## C12 Commit re-encoding is byte identical

Full statement: for every well-formed commit object, encoding the decoded node
gives the input. It holds for the header order that the encoder writes, and
fails for others, in particular for the order git itself uses when there are
unknown headers and a signature. -/

/-- What any sequence of headers decodes to, and what is written for it: each
header in the encoder's order. -/
theorem commit_reencode (N : Nat) (hN : 4096 ≤ N) (is : List Item) (h : ItemsOk N is) (msg : Bytes)
    (a k : PersonInfo) (ha : (commitOf is msg).author = some a) (hk : (commitOf is msg).committer = some k)
    (out : Bytes) (hout : Framed b!"commit" (itemsBody is msg) out)
    (hlen : (itemsBody is msg).length < 2 ^ 63) :
    parseObject (σ := Stream) ⟨out, .eof, N⟩ = .ok (.commit (commitOf is msg)) ∧
    ∃ out', encObj (.commit (commitOf is msg)) = .ok out' ∧
      Framed b!"commit" (commitBody (commitOf is msg) a k) out' ∧
      (out' = out ↔ itemsBody is msg = commitBody (commitOf is msg) a k) := by
  refine ⟨?_, withHeader b!"commit" (commitBody (commitOf is msg) a k), ?_, framed_withHeader _ _, ?_⟩
  · rw [parse_commit_framed hout _ _ hlen, commitRun_itemsBody is msg N hN h]
    rfl
  · refine encCommit_text _ a k ?_ ?_ ha hk ?_
    · exact foldl_tree is N h _ (.inr rfl)
    · intro p hp
      have hpar : (commitOf is msg).parents = (is.foldl Item.apply noCommit).parents := rfl
      rw [hpar, foldl_parents] at hp
      simp only [noCommit, List.nil_append, List.mem_filterMap] at hp
      obtain ⟨i, hi, hp⟩ := hp
      cases i with
      | parent x sha =>
        simp only [Option.some.injEq] at hp
        exact ⟨sha, (itemsOk_mem is N h _ hi).2, hp.symm⟩
      | _ => simp at hp
    · intro t ht
      have hmt : (commitOf is msg).mergetag = (is.foldl Item.apply noCommit).mergetag := rfl
      rw [hmt, foldl_mergetag] at ht
      simp only [noCommit, List.nil_append, List.mem_filterMap] at ht
      obtain ⟨i, hi, ht⟩ := ht
      cases i with
      | mergetag x t' =>
        simp only [Option.some.injEq] at ht
        subst ht
        exact (itemsOk_mem is N h _ hi).2.object
      | _ => simp at ht
  · rw [framed_eq hout]
    exact ⟨fun he => (withHeader_inj he).symm, fun he => by rw [he]⟩

/-- A commit in the encoder's order is reproduced byte for byte. -/
theorem commit_bytes_partial (N : Nat) (hN : 4096 ≤ N) (c : Commit) (a k : PersonInfo)
    (h : CommitOk N c a k) (out : Bytes) (hout : Framed b!"commit" (commitBody c a k) out)
    (hlen : (commitBody c a k).length < 2 ^ 63) :
    parseObject (σ := Stream) ⟨out, .eof, N⟩ = .ok (.commit c) ∧ encObj (.commit c) = .ok out := by
  constructor
  · rw [parse_commit_framed hout _ _ hlen, commitRun_body c a k N hN h]
    rfl
  · rw [framed_eq hout]
    exact encCommit_eq c a k N h

/-- The order in which git writes the headers of a commit: unknown headers before
the signature. -/
def gitOrder (c : Commit) (author committer : PersonInfo) : Bytes :=
  unlines [b!"tree " ++ hex (digest c.tree)]
  ++ unlines (c.parents.map fun p => b!"parent " ++ hex (digest p))
  ++ unlines [b!"author " ++ personText author, b!"committer " ++ personText committer]
  ++ encodingText c.encoding
  ++ c.mergetag.flatMap mergeTagText
  ++ unlines c.other
  ++ sigText c.signature
  ++ unlines [b!""]
  ++ c.message

/-- The header items of `gitOrder`. -/
def gitItems (c : Commit) (author committer : PersonInfo) : List Item :=
  [.tree (hex (digest c.tree)) (digest c.tree)]
  ++ c.parents.map (fun p => .parent (hex (digest p)) (digest p))
  ++ [.author author, .committer committer]
  ++ (c.encoding.map Item.encoding).toList
  ++ c.mergetag.map (fun t => .mergetag (hex (digest t.object)) t)
  ++ c.other.map Item.other
  ++ (c.signature.map Item.sig).toList

theorem gitItems_body (c : Commit) (a k : PersonInfo) :
    itemsBody (gitItems c a k) c.message = gitOrder c a k := by
  unfold itemsBody itemsText gitItems gitOrder
  simp only [List.flatMap_append, List.flatMap_cons, List.flatMap_nil, List.append_nil,
    List.flatMap_map, Item.text]
  have h1 : (c.encoding.map Item.encoding).toList.flatMap Item.text = encodingText c.encoding := by
    cases c.encoding <;> simp [encodingText, Item.text]
  have h2 : (c.signature.map Item.sig).toList.flatMap Item.text = sigText c.signature := by
    cases c.signature <;> simp [sigText, Item.text]
  rw [h1, h2]
  simp [unlines, List.flatMap_map]
  rfl

theorem itemsOk_append (N : Nat) (a b : List Item) (ha : ItemsOk N a) (hb : ItemsOk N b)
    (hab : ∀ h t l, a.getLast? = some (.mergetag h t) → b.head? = some (.other l) → l.head? ≠ some SP) :
    ItemsOk N (a ++ b) := by
  induction a with
  | nil => exact hb
  | cons i a ih =>
    obtain ⟨h1, h2, h3⟩ := ha
    refine ⟨h1, ?_, ih h3 ?_⟩
    · intro h t l hi hh
      cases a with
      | nil => exact hab h t l (by simp [hi]) hh
      | cons j a => exact h2 h t l hi (by simpa using hh)
    · intro h t l hl hh
      refine hab h t l ?_ hh
      cases a with
      | nil => simp at hl
      | cons j a => simpa using hl

theorem itemsOk_of_mem (N : Nat) (is : List Item) (h : ∀ i ∈ is, i.Ok N)
    (hno : (∀ i ∈ is, ∀ l, i ≠ .other l) ∨ (∀ i ∈ is, ∀ h t, i ≠ .mergetag h t)) : ItemsOk N is := by
  induction is with
  | nil => trivial
  | cons i is ih =>
    refine ⟨h i (by simp), ?_, ih (fun j hj => h j (by simp [hj])) ?_⟩
    · intro x t l hi hh
      rcases hno with hno | hno
      · exact absurd rfl (hno (.other l) (by simp [List.mem_of_mem_head? hh]) l)
      · exact absurd hi (hno i (by simp) x t)
    · rcases hno with hno | hno
      · exact .inl fun j hj => hno j (by simp [hj])
      · exact .inr fun j hj => hno j (by simp [hj])

/-- For every commit with a signature and at least one unknown header, the bytes
git writes decode to that commit but encoding it gives other bytes (so the hash
changes). -/
theorem commit_git_order_changed (N : Nat) (hN : 4096 ≤ N) (c : Commit) (a k : PersonInfo)
    (h : CommitOk N c a k) (hsig : c.signature ≠ none) (hother : c.other ≠ [])
    (hafter : c.mergetag ≠ [] → ∀ l, c.other.head? = some l → l.head? ≠ some SP)
    (out : Bytes) (hout : Framed b!"commit" (gitOrder c a k) out)
    (hlen : (gitOrder c a k).length < 2 ^ 63) :
    parseObject (σ := Stream) ⟨out, .eof, N⟩ = .ok (.commit c) ∧ encObj (.commit c) ≠ .ok out := by
  have hcomm : commitOf (gitItems c a k) c.message = c := by
    have e1 : c.parents.map (fun p => gitLink (digest p)) = c.parents := by
      have := h.parents
      generalize c.parents = l at this
      induction l with
      | nil => rfl
      | cons p l ih =>
        have hp := gitLink_digest (this p (by simp))
        rw [← gitLink_eq] at hp
        rw [List.map_cons, hp, ih fun q hq => this q (by simp [hq])]
    have f1 : ∀ (l : List Link) (x : Commit), (l.map (fun p => Item.parent (hex (digest p)) (digest p))).foldl
        Item.apply x = { x with parents := x.parents ++ l.map fun p => gitLink (digest p) } := by
      intro l
      induction l with
      | nil => intro x; simp
      | cons p l ih => intro x; simp [Item.apply, ih]
    have f2 : ∀ (l : List Tag) (x : Commit), (l.map (fun t => Item.mergetag (hex (digest t.object)) t)).foldl
        Item.apply x = { x with mergetag := x.mergetag ++ l } := by
      intro l
      induction l with
      | nil => intro x; simp
      | cons p l ih => intro x; simp [Item.apply, ih]
    have f3 : ∀ (l : List Bytes) (x : Commit), (l.map Item.other).foldl
        Item.apply x = { x with other := x.other ++ l } := by
      intro l
      induction l with
      | nil => intro x; simp
      | cons p l ih => intro x; simp [Item.apply, ih]
    have ht := gitLink_digest h.tree
    rw [← gitLink_eq] at ht
    unfold commitOf gitItems
    simp only [List.foldl_append, f1, f2, f3, List.foldl_cons, List.foldl_nil, Item.apply, noCommit, ht, e1]
    have ha := h.authorIs
    have hk := h.committerIs
    obtain ⟨ct, cp, cm, ca, ck, ce, cs, cg, co⟩ := c
    simp only at ha hk
    subst ha hk
    cases ce <;> cases cs <;> simp [Item.apply]
  have hitems : ItemsOk N (gitItems c a k) := by
    unfold gitItems
    rw [List.append_assoc _ (c.other.map Item.other)]
    refine itemsOk_append N _ _ ?_ ?_ ?_
    · refine itemsOk_of_mem N _ ?_ ?_
      · intro i hi
        simp only [List.mem_append, List.mem_cons, List.not_mem_nil, or_false, List.mem_map,
          Option.mem_toList, Option.map_eq_some_iff] at hi
        rcases hi with (((rfl | ⟨p, hp, rfl⟩) | rfl | rfl) | ⟨e, he, rfl⟩) | ⟨t, ht, rfl⟩
        · exact ref_hex _ (digest_length h.tree)
        · exact ref_hex _ (digest_length (h.parents p hp))
        · exact ⟨h.authorOk, h.authorLine⟩
        · exact ⟨h.committerOk, h.committerLine⟩
        · exact h.encoding e he
        · exact ⟨ref_hex _ (digest_length (h.mergetag t ht).object), h.mergetag t ht⟩
      · left
        intro i hi l
        simp only [List.mem_append, List.mem_cons, List.not_mem_nil, or_false, List.mem_map,
          Option.mem_toList, Option.map_eq_some_iff] at hi
        rcases hi with (((rfl | ⟨p, hp, rfl⟩) | rfl | rfl) | ⟨e, he, rfl⟩) | ⟨t, ht, rfl⟩ <;> simp
    · refine itemsOk_of_mem N _ ?_ ?_
      · intro i hi
        simp only [List.mem_append, List.mem_map, Option.mem_toList, Option.map_eq_some_iff] at hi
        rcases hi with ⟨l, hl, rfl⟩ | ⟨g, hg, rfl⟩
        · exact h.other l hl
        · exact h.signature g hg
      · right
        intro i hi
        simp only [List.mem_append, List.mem_map, Option.mem_toList, Option.map_eq_some_iff] at hi
        rcases hi with ⟨l, hl, rfl⟩ | ⟨g, hg, rfl⟩ <;> simp
    · intro x t l hlast hhead
      have hne : c.mergetag ≠ [] := by
        intro hnil
        rw [hnil] at hlast
        cases he : c.encoding with
        | none =>
          rw [he] at hlast
          simp only [Option.map_none, Option.toList_none, List.map_nil, List.append_nil] at hlast
          rw [List.getLast?_append] at hlast
          simp at hlast
        | some e =>
          rw [he] at hlast
          simp only [Option.map_some, Option.toList_some, List.map_nil, List.append_nil] at hlast
          rw [List.getLast?_append] at hlast
          simp at hlast
      refine hafter hne l ?_
      cases hc : c.other with
      | nil => exact absurd hc hother
      | cons y ys =>
        rw [hc] at hhead
        simpa using hhead
  constructor
  · have hl : (itemsBody (gitItems c a k) c.message).length < 2 ^ 63 := by rw [gitItems_body]; exact hlen
    have := (commit_reencode N hN (gitItems c a k) hitems c.message a k (by rw [hcomm]; exact h.authorIs)
      (by rw [hcomm]; exact h.committerIs) out (by rw [gitItems_body]; exact hout) hl).1
    rw [this, hcomm]
  · intro he
    simp only [encObj] at he
    rw [encCommit_eq c a k N h, framed_eq hout] at he
    have hb := withHeader_inj (Res.ok.inj he)
    unfold commitBody gitOrder at hb
    simp only [List.append_assoc, List.append_cancel_left_eq] at hb
    cases hg : c.signature with
    | none => exact hsig hg
    | some g =>
      cases ho : c.other with
      | nil => exact hother ho
      | cons l ls =>
        have hl := h.other l (by simp [ho])
        rw [hg, ho] at hb
        simp only [sigText, unlines, List.flatMap_cons, sigBegin, List.flatMap_nil, List.append_nil,
          List.append_assoc, List.cons_append, List.nil_append] at hb
        have hpre : b!"gpgsig " <+: l ++ LF :: ((ls.flatMap fun l => l ++ [LF]) ++
            (b!"gpgsig -----BEGIN PGP SIGNATURE-----\n" ++ (g ++ (sigEnd ++ LF :: LF :: c.message)))) := by
          refine ⟨_, hb.trans ?_⟩
          simp
        exact hl.unknown b!"gpgsig " (by decide) (prefix_line _ _ _ (by decide) hpre)

example : sampleCommit.signature ≠ none ∧ sampleCommit.other ≠ [] ∧
    (sampleCommit.mergetag ≠ [] → ∀ l, sampleCommit.other.head? = some l → l.head? ≠ some SP) := by
  decide

end Verif.Props
