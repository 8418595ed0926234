import Verif.Spec.Signed
import Verif.Proofs.Faults
import Verif.Props.Order

/-!
# Signed commits: C98
-/

namespace Verif.Props

open Verif Spec

/-! ## C98 Which signatures are understood -/

theorem sigStart_space (l : Bytes) : SigStart [SP :: l] ↔ PlainStart [l] := by
  have h : ∀ p : Bytes, SP :: p <+: SP :: l ↔ p <+: l := fun p => by simp
  constructor
  · rintro ⟨x, hx, hs⟩
    simp only [List.head?_cons, Option.some.injEq] at hx
    subst hx
    refine ⟨l, rfl, ?_⟩
    rcases hs with hs | hs | hs
    · exact .inl (by simpa [SP] using hs)
    · exact .inr (.inl ((h b!"Version: ").1 hs))
    · exact .inr (.inr ((h b!"Comment: ").1 hs))
  · rintro ⟨x, hx, hs⟩
    simp only [List.head?_cons, Option.some.injEq] at hx
    subst hx
    refine ⟨_, rfl, ?_⟩
    rcases hs with hs | hs | hs
    · exact .inl (by subst hs; decide)
    · exact .inr (.inl ((h b!"Version: ").2 hs))
    · exact .inr (.inr ((h b!"Comment: ").2 hs))

/-- The headers before the signature are read as if it were not there. -/
theorem run_to_sig (N : Nat) (hN : 4096 ≤ N) (is : List Item) (his : ItemsOk N is) (v : Bytes)
    (hv : HeaderLine N (b!"gpgsig " ++ v)) (r : Bytes) :
    commitRun Commit.zero ⟨itemsText is ++ (b!"gpgsig " ++ v ++ LF :: r), .eof, N⟩ =
      commitLineRun (is.foldl Item.apply Commit.zero) (b!"gpgsig " ++ v) ⟨r, .eof, N⟩ >>= fun p => commitRun p.1 p.2 := by
  rw [commitRun_items is _ _ _ N hN his (startsOk_of _ _ rfl hv (by simp [SP])), commitRun_line _ _ _ _ _ (by omega) hv]

/-- A signature whose second line is neither empty nor a `Version` or `Comment`
header is refused, whatever follows. -/
theorem signed_refused (N : Nat) (hN : 4096 ≤ N) (is : List Item) (his : ItemsOk N is) (v l r out : Bytes)
    (hv : HeaderLine N (b!"gpgsig " ++ v)) (hl : HeaderLine N (SP :: l)) (hs : ¬ PlainStart [l])
    (hout : Framed b!"commit" (itemsText is ++ (b!"gpgsig " ++ v ++ LF :: (SP :: l ++ LF :: r))) out)
    (hlen : (itemsText is ++ (b!"gpgsig " ++ v ++ LF :: (SP :: l ++ LF :: r))).length < 2 ^ 63) :
    parseObject (σ := Stream) ⟨out, .eof, N⟩ = .err .badSig := by
  rw [parse_commit_framed hout _ _ hlen, run_to_sig N hN is his v hv,
    (commitLine_gpg_err _ (b!"gpgsig " ++ v) ⟨SP :: l ++ LF :: r, .eof, N⟩ .badSig (by simp; omega) rfl
      (List.prefix_append _ _)).2 (.inr ⟨rfl, SP :: l, r, .lf _ _ hl.noLF hl.noCR hl.short,
        fun h => hs ((sigStart_space l).1 h)⟩)]
  rfl

/-- A signature without the line that ends PGP signatures takes everything to the
end of the commit, and the commit is refused. -/
theorem signed_unclosed (N : Nat) (hN : 4096 ≤ N) (is : List Item) (his : ItemsOk N is) (v l r out : Bytes)
    (hv : HeaderLine N (b!"gpgsig " ++ v)) (hl : HeaderLine N (SP :: l)) (hs : PlainStart [l])
    (hend : ¬ sigEnd <:+: SP :: l ++ LF :: r)
    (hout : Framed b!"commit" (itemsText is ++ (b!"gpgsig " ++ v ++ LF :: (SP :: l ++ LF :: r))) out)
    (hlen : (itemsText is ++ (b!"gpgsig " ++ v ++ LF :: (SP :: l ++ LF :: r))).length < 2 ^ 63) :
    parseObject (σ := Stream) ⟨out, .eof, N⟩ = .err .eof := by
  have hN2 : 2 ≤ N := by omega
  have hline : Line N (SP :: l ++ LF :: r) (SP :: l) r := .lf _ _ hl.noLF hl.noCR hl.short
  have hg : decodeGpgSig (σ := Stream) ⟨SP :: l ++ LF :: r, .eof, N⟩ = .err .eof := by
    cases hd : decodeGpgSig (σ := Stream) ⟨SP :: l ++ LF :: r, .eof, N⟩ with
    | ok p => exact absurd (decodeGpgSig_from _ _ hN2 (List.suffix_refl _) p.1 p.2 hd).2 hend
    | panic =>
      exfalso
      have := clean_decodeGpgSig ⟨SP :: l ++ LF :: r, .eof, N⟩ hN2 (by simp)
      exact this.1 hd
    | err e =>
      rcases (gpgSig_err _ _ hN2 rfl).1 hd with ⟨rfl, _⟩ | ⟨rfl, l', r', h1, h2⟩
      · rfl
      · obtain ⟨rfl, rfl⟩ := Line_unique hN2 hline h1
        exact absurd ((sigStart_space l).2 hs) h2
  rw [parse_commit_framed hout _ _ hlen, run_to_sig N hN is his v hv,
    (commitLine_gpg_err _ (b!"gpgsig " ++ v) ⟨SP :: l ++ LF :: r, .eof, N⟩ .eof hN2 rfl
      (List.prefix_append _ _)).2 ((gpgSig_err _ _ hN2 rfl).1 hg)]
  rfl

theorem sigHeader_pgp (ls : List Bytes) :
    sigHeader .pgp ls = unlines [sigBegin] ++ unlines (ls.map (SP :: ·)) ++ unlines [sigEnd] := by
  simp [sigHeader, headerText, unlines, SigFormat.first, SigFormat.last, SigFormat.label, sigBegin, sigEnd, SP]

theorem base64_start {l : Bytes} (h : Base64Line l) : ¬ PlainStart [l] := by
  rintro ⟨x, hx, hs⟩
  simp only [List.head?_cons, Option.some.injEq] at hx
  subst hx
  rcases hs with hs | hs | hs
  · exact h.1 hs
  · have := h.2 58 (hs.subset (by decide))
    revert this; decide
  · have := h.2 58 (hs.subset (by decide))
    revert this; decide

theorem armour_not_last {f : SigFormat} {ls : List Bytes} (h : Armour f ls) : ∀ l ∈ ls, SP :: l ≠ sigEnd := by
  have hb : ∀ l, Base64Line l → SP :: l ≠ sigEnd := by
    intro l hl he
    have h1 : (45 : UInt8) ∈ SP :: l := by rw [he]; decide
    rcases List.mem_cons.1 h1 with h1 | h1
    · revert h1; decide
    · have := hl.2 45 h1
      revert this; decide
  intro l hl
  cases h with
  | pgp hs bs hh hb' =>
    rcases List.mem_append.1 hl with hl | hl
    · intro he
      obtain ⟨k, v, rfl, _, _⟩ := hh l hl
      have : (58 : UInt8) ∈ sigEnd := by rw [← he]; simp
      revert this; decide
    · rcases List.mem_cons.1 hl with rfl | hl
      · decide
      · exact hb l (hb' l hl)
  | x509 b bs h => exact hb l (h l hl)
  | ssh b bs h => exact hb l (h l hl)

theorem plainStart_cons (l : Bytes) (ls : List Bytes) : PlainStart (l :: ls) ↔ PlainStart [l] := Iff.rfl

theorem signed_ok {N : Nat} {f : SigFormat} {ls : List Bytes} (h : Armour f ls)
    (hl : ∀ l ∈ ls, HeaderLine N (SP :: l)) (hs : PlainStart ls) : SigOk N (sigLines ls) := by
  cases ls with
  | nil => obtain ⟨x, hx, _⟩ := hs; simp at hx
  | cons l ls =>
    refine ⟨SP :: l, ls.map (SP :: ·), rfl, ?_, ?_, ?_⟩
    · intro x hx
      have : x ∈ (l :: ls).map (SP :: ·) := hx
      obtain ⟨y, hy, rfl⟩ := List.mem_map.1 this
      exact hl y hy
    · intro x hx
      obtain ⟨y, hy, rfl⟩ := List.mem_map.1 hx
      exact armour_not_last h y (by simp [hy])
    · obtain ⟨x, hx, hs⟩ := (sigStart_space l).2 ((plainStart_cons l ls).1 hs)
      simp only [List.head?_cons, Option.some.injEq] at hx
      subst hx
      exact hs

theorem itemsOk_signed {N : Nat} {is js : List Item} {g : Bytes} (his : ItemsOk N is) (hjs : ItemsOk N js)
    (hg : SigOk N g) : ItemsOk N (is ++ .sig g :: js) := by
  refine itemsOk_append N _ _ his ⟨hg, ?_, hjs⟩ ?_
  · intro h t l hh; cases hh
  · intro x t l _ hh; simp at hh

theorem signedBody_items (is js : List Item) (ls : List Bytes) (msg : Bytes) :
    signedBody is js (sigHeader .pgp ls) msg = itemsBody (is ++ .sig (sigLines ls) :: js) msg := by
  rw [sigHeader_pgp]
  simp [signedBody, itemsBody, itemsText, Item.text, sigLines]

theorem foldl_signature (js : List Item) (hjs : ∀ g, Item.sig g ∉ js) (c : Commit) (g : Option Bytes) :
    js.foldl Item.apply { c with signature := g } = { js.foldl Item.apply c with signature := g } := by
  induction js generalizing c with
  | nil => rfl
  | cons i js ih =>
    have ih := fun c => ih (fun g hg => hjs g (by simp [hg])) c
    rw [List.foldl_cons, List.foldl_cons, ← ih]
    cases i with
    | sig x => exact absurd (by simp) (hjs x)
    | _ => rfl

theorem foldl_unsigned (js : List Item) (hjs : ∀ g, Item.sig g ∉ js) (c : Commit) :
    (js.foldl Item.apply c).signature = c.signature := by
  have h := foldl_signature js hjs c c.signature
  have : ({ c with signature := c.signature } : Commit) = c := rfl
  rw [this] at h
  rw [h]

theorem commitOf_signed (is js : List Item) (g msg : Bytes) (hs : ∀ g, Item.sig g ∉ js) :
    commitOf (is ++ .sig g :: js) msg = { commitOf (is ++ js) msg with signature := some g } := by
  unfold commitOf
  rw [List.foldl_append, List.foldl_cons, List.foldl_append,
    show Item.apply (is.foldl Item.apply noCommit) (.sig g) = { is.foldl Item.apply noCommit with signature := some g } from rfl,
    foldl_signature js hs]

/-- A commit with a signature as git writes it is accepted exactly if that is a
PGP signature whose armour begins with an empty line, `Version` or `Comment`. Then
the signature is the text within the armour, and the rest is read as if there were
no signature. Otherwise the error is that of a bad signature. -/
theorem signed_exact (N : Nat) (hN : 4096 ≤ N) (is js : List Item) (his : ItemsOk N is) (hjs : ItemsOk N js)
    (hone : ∀ g, Item.sig g ∉ js) (f : SigFormat) (ls : List Bytes) (h : Armour f ls)
    (hl : ∀ l ∈ ls, HeaderLine N (SP :: l)) (msg out : Bytes)
    (hout : Framed b!"commit" (signedBody is js (sigHeader f ls) msg) out)
    (hlen : (signedBody is js (sigHeader f ls) msg).length < 2 ^ 63) :
    (f = .pgp ∧ PlainStart ls → parseObject (σ := Stream) ⟨out, .eof, N⟩ =
      .ok (.commit { commitOf (is ++ js) msg with signature := some (sigLines ls) })) ∧
    (¬ (f = .pgp ∧ PlainStart ls) → parseObject (σ := Stream) ⟨out, .eof, N⟩ = .err .badSig) := by
  constructor
  · rintro ⟨rfl, hs⟩
    rw [signedBody_items] at hout hlen
    rw [parse_commit_framed hout _ _ hlen, commitRun_itemsBody _ msg N hN (itemsOk_signed his hjs (signed_ok h hl hs)),
      commitOf_signed _ _ _ _ hone]
    rfl
  · intro hn
    have key : ∃ l ls', ls = l :: ls' ∧ ¬ PlainStart [l] := by
      cases h with
      | pgp hs bs hh hb =>
        cases hs with
        | nil => exact absurd ⟨rfl, [], rfl, .inl rfl⟩ hn
        | cons x xs => exact ⟨x, _, rfl, fun h => hn ⟨rfl, h⟩⟩
      | x509 b bs h => exact ⟨b, bs, rfl, base64_start (h b (by simp))⟩
      | ssh b bs h => exact ⟨b, bs, rfl, base64_start (h b (by simp))⟩
    obtain ⟨l, ls', rfl, hs⟩ := key
    have ht : signedBody is js (sigHeader f (l :: ls')) msg =
        itemsText is ++ (b!"gpgsig " ++ f.first ++ LF :: (SP :: l ++ LF ::
          (unlines ((ls' ++ [f.last]).map (SP :: ·)) ++ (itemsText js ++ LF :: msg)))) := by
      simp [signedBody, sigHeader, headerText, unlines, SP]
    rw [ht] at hout hlen
    refine signed_refused N hN is his f.first l _ out ?_ (hl l (by simp)) hs hout hlen
    cases f <;> exact ⟨by decide, by decide, by simp [SigFormat.first, SigFormat.label]; omega⟩

/-- So every commit with an SSH or X.509 signature is refused. -/
theorem signed_other_format (N : Nat) (hN : 4096 ≤ N) (is js : List Item) (his : ItemsOk N is) (hjs : ItemsOk N js)
    (hone : ∀ g, Item.sig g ∉ js) (f : SigFormat) (hf : f ≠ .pgp) (ls : List Bytes) (h : Armour f ls)
    (hl : ∀ l ∈ ls, HeaderLine N (SP :: l)) (msg out : Bytes)
    (hout : Framed b!"commit" (signedBody is js (sigHeader f ls) msg) out)
    (hlen : (signedBody is js (sigHeader f ls) msg).length < 2 ^ 63) :
    parseObject (σ := Stream) ⟨out, .eof, N⟩ = .err .badSig :=
  (signed_exact N hN is js his hjs hone f ls h hl msg out hout hlen).2 fun h => hf h.1

/-- What was signed, the commit without the signature, is what Encode writes for
the node without the signature, wherever the signature stood, if the other headers
are in the encoder's order. -/
theorem signed_payload (N : Nat) (hN : 4096 ≤ N) (is js : List Item) (hok : ItemsOk N (is ++ js))
    (his : ItemsOk N is) (hjs : ItemsOk N js)
    (hone : ∀ g, Item.sig g ∉ is ++ js) (hord : EncoderOrder (is ++ js)) (ls : List Bytes) (h : Armour .pgp ls)
    (hs : PlainStart ls) (hl : ∀ l ∈ ls, HeaderLine N (SP :: l)) (msg out payload : Bytes)
    (hout : Framed b!"commit" (signedBody is js (sigHeader .pgp ls) msg) out)
    (hlen : (signedBody is js (sigHeader .pgp ls) msg).length < 2 ^ 63)
    (hpay : Framed b!"commit" (itemsBody (is ++ js) msg) payload) :
    ∃ c, parseObject (σ := Stream) ⟨out, .eof, N⟩ = .ok (.commit c) ∧ c.signature = some (sigLines ls) ∧
      encObj (.commit { c with signature := none }) = .ok payload := by
  refine ⟨_, (signed_exact N hN is js his hjs (fun g hg => hone g (by simp [hg])) .pgp ls h hl msg out hout hlen).1
    ⟨rfl, hs⟩, rfl, ?_⟩
  have hlen' : (itemsBody (is ++ js) msg).length < 2 ^ 63 := by
    refine Nat.lt_of_le_of_lt ?_ hlen
    simp [signedBody, itemsBody, itemsText]
  have hp : parseObject (σ := Stream) ⟨payload, .eof, N⟩ = .ok (.commit (commitOf (is ++ js) msg)) := by
    rw [parse_commit_framed hpay _ _ hlen', commitRun_itemsBody _ msg N hN hok]
    rfl
  obtain ⟨c, hc, he⟩ := commit_bytes_exact N hN (is ++ js) hok msg payload hpay hlen'
  rw [hp] at hc
  have hc : commitOf (is ++ js) msg = c := by simpa using hc
  have hsig : (commitOf (is ++ js) msg).signature = none := foldl_unsigned _ hone noCommit
  rw [← he.2 hord, ← hc, show ({ commitOf (is ++ js) msg with signature := none } : Commit) = commitOf (is ++ js) msg by
    rw [← hsig]]

/-! A signed commit as git writes it, with an unknown header before the signature. -/

def signedBefore : List Item :=
  [.tree (hex (List.replicate 20 1)) (List.replicate 20 1), .author ⟨b!"A", b!"a", b!"5", b!"+0000"⟩,
   .committer ⟨b!"A", b!"a", b!"5", b!"+0000"⟩, .other b!"HG:extra x"]

theorem signedBefore_ok : ItemsOk 4096 signedBefore := by
  have hp : PersonOk ⟨b!"A", b!"a", b!"5", b!"+0000"⟩ :=
    ⟨⟨by decide, by decide⟩, by decide, by decide, by decide, by decide, by decide, by decide⟩
  refine ⟨ref_hex _ (by decide), by simp, ⟨hp, by decide, by decide, by decide⟩, by simp, ⟨hp, by decide, by decide, by decide⟩,
    by simp, ⟨⟨by decide, by decide, by decide⟩, by decide, by decide⟩, by simp, trivial⟩

/-- The lines of a signature. -/
def pgpLines : List Bytes := [b!"Version: GnuPG v2", [], b!"iQ==", b!"=abc"]

theorem pgpLines_ok : Armour .pgp pgpLines ∧ PlainStart pgpLines ∧ ∀ l ∈ pgpLines, HeaderLine 4096 (SP :: l) := by
  refine ⟨.pgp [b!"Version: GnuPG v2"] [b!"iQ==", b!"=abc"] ?_ ?_, ⟨_, rfl, .inr (.inl (by decide))⟩, ?_⟩
  · intro h hh
    simp only [List.mem_singleton] at hh
    subst hh
    exact ⟨b!"Version", b!"GnuPG v2", by decide, by decide, by decide⟩
  · intro b hb
    simp only [List.mem_cons, List.not_mem_nil, or_false] at hb
    rcases hb with rfl | rfl <;> exact ⟨by decide, by decide⟩
  · intro l hl
    simp only [pgpLines, List.mem_cons, List.not_mem_nil, or_false] at hl
    rcases hl with rfl | rfl | rfl | rfl <;> exact ⟨by decide, by decide, by decide⟩

/-- The commit changes when it is encoded again; what was signed does not. -/
example : EncoderOrder signedBefore ∧ (∀ g, Item.sig g ∉ signedBefore) ∧
    ¬ EncoderOrder (signedBefore ++ [.sig (sigLines pgpLines)]) := by
  refine ⟨⟨List.replicate 20 1, [], _, _, none, [], none, [b!"HG:extra x"], rfl⟩, by simp [signedBefore], ?_⟩
  rintro ⟨tree, parents, a, k, enc, merges, sig, others, h⟩
  have h1 := congrArg List.getLast? h
  cases others with
  | cons o os =>
    rw [List.getLast?_append, List.getLast?_append] at h1
    have : (List.map Item.other (o :: os)).getLast? = some (.other ((o :: os).getLast (by simp))) := by
      rw [List.getLast?_map, List.getLast?_eq_some_getLast (by simp)]; rfl
    rw [this] at h1
    simp [signedBefore] at h1
  | nil =>
    have h2 : Item.other b!"HG:extra x" ∈ signedBefore ++ [.sig (sigLines pgpLines)] := by simp [signedBefore]
    rw [h] at h2
    simp at h2

/-- SSH. -/
example : Armour .ssh [b!"U1NIU0lH", b!"AAAA"] :=
  .ssh _ _ (by
    intro b hb
    simp only [List.mem_cons, List.not_mem_nil, or_false] at hb
    rcases hb with rfl | rfl <;> exact ⟨by decide, by decide⟩)

/-- A PGP message instead of a signature has another last line. -/
example : ¬ sigEnd <:+: SP :: [] ++ LF :: b!" iQ==\n -----END PGP MESSAGE-----\n\nmsg" := by decide +kernel

end Verif.Props
