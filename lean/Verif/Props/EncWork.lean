import Verif.Proofs.EncWork
import Verif.Props.Work
import Verif.Props.Growth
import Verif.Props.Links

/-!
# C108: the work of encoding
-/

namespace Verif.Props

open Verif Spec

/-- The rule of `bytes.Buffer` is one of those that are meant. -/
theorem bufferGrow_grows (roundUp : Nat → Nat) (h : ∀ n, n ≤ roundUp n) : Grows (bufferGrow roundUp) := by
  intro cap need hlt
  unfold bufferGrow
  split
  · omega
  · have := h (max need (2 * cap))
    omega

/-- Counting changes nothing. -/
theorem encode_work_result (g : Rules) (o : Obj) : (encObjW g o).res = encObj o := obj_res g o

/-- At most 32 steps for every byte that is written. -/
theorem encode_work_linear {g : Rules} (hg : GrowsBoth g) (o : Obj) (hl : ∀ l ∈ linksOf o, GitLong l) (out : Bytes)
    (h : encObj o = .ok out) : (encObjW g o).cost ≤ 32 * out.length := obj_cost hg o hl out h

theorem send_least (g : Rules) (x : Work OutBuf) (w out : Bytes) (h : (x.bind fun b => sendW g w b).res = .ok out) :
    out.length ≤ (x.bind fun b => sendW g w b).cost := by
  obtain ⟨b, hb, h1, hc⟩ := Work.bind_inv h
  unfold sendW at h1 hc
  obtain ⟨y, hy, h2, hc2⟩ := Work.bind_inv h1
  have : y ++ b.bytes = out := Res.ok.inj h2
  subst this
  unfold sendW
  rw [hc, hc2]
  simp only [Work.spend, List.length_append]
  omega

/-- At least one. -/
theorem encode_work_least (g : Rules) (o : Obj) (out : Bytes) (h : encObj o = .ok out) :
    out.length ≤ (encObjW g o).cost := by
  rw [← obj_res g] at h
  cases o with
  | blob b =>
    have : b = out := Res.ok.inj h
    subst this
    exact Nat.le_refl _
  | tree t => exact send_least g _ _ out h
  | tag t =>
    simp only [encObjW, encTagW, ← work_assoc] at h ⊢
    exact send_least g _ _ out h
  | commit c =>
    simp only [encObjW, encCommitW, ← work_assoc] at h ⊢
    exact send_least g _ _ out h

theorem decoded_gitLong (s : Stream) (hN : 2 ≤ s.bufsz) (o : Obj) (h : parseObject s = .ok o) :
    ∀ l ∈ linksOf o, GitLong l := by
  have hd := (decoded_links s hN o h).1
  have key : ∀ l ∈ listLinks o ++ headLinks o, GitLong l := by
    intro l hl
    rcases hd l hl with ⟨_, rfl⟩ | ⟨sha, hs, rfl, _⟩
    · trivial
    · simp [GitLong, hs]
  intro l hl
  apply key
  cases o with
  | blob b => simp [linksOf] at hl
  | tree t => simpa [linksOf, listLinks, headLinks] using hl
  | tag t => simpa [linksOf, listLinks, headLinks] using hl
  | commit c =>
    simp only [linksOf, List.cons_append, List.mem_cons, List.mem_append] at hl
    simp only [listLinks, headLinks, List.mem_append, List.mem_singleton]
    rcases hl with h | h | h
    · exact .inr h
    · exact .inl (.inl h)
    · exact .inl (.inr h)

/-- Encoding what was decoded takes a time linear in what was read. -/
theorem encode_work_decoded {g : Rules} (hg : GrowsBoth g) (s : Stream) (hN : 58 ≤ s.bufsz) (o : Obj)
    (hp : parseObject s = .ok o) (out : Bytes) (h : encObj o = .ok out) :
    (encObjW g o).cost ≤ 64 * s.rest.length + 5120 := by
  have h1 := encode_work_linear hg o (decoded_gitLong s (by omega) o hp) out h
  have h2 := reencode_double s hN o hp out h
  omega

/-- A tree with one link whose multihash has `n + 20` bytes. -/
def longLink (n : Nat) : Tree :=
  let e : TreeEntry := { mode := b!"100644", hash := .cid { version := 1, codec := 0x78, hash := List.replicate (n + 20) 0 } }
  { t := [(b!"a", e)], m := [(b!"a", e)] }

/-- Without the condition on the links there is no bound: of a long multihash all is copied and the end is written. -/
theorem encode_work_long_link (g : Rules) (n : Nat) :
    ∃ out, encObj (.tree (longLink n)) = .ok out ∧ out.length = 37 ∧ n < (encObjW g (.tree (longLink n))).cost := by
  have hs : cidToSha { version := 1, codec := 0x78, hash := List.replicate (n + 20) 0 } = .ok (List.replicate 20 0) := by
    simp [cidToSha]
  have hb : encTreeEntries (longLink n).t = .ok (b!"100644 a\x00" ++ List.replicate 20 0) := by
    simp [encTreeEntries, longLink, encTreeEntry, hs, SP, NUL]
  refine ⟨withHeader b!"tree" (b!"100644 a\x00" ++ List.replicate 20 0), ?_, by decide +kernel, ?_⟩
  · simp only [encObj, encTree, hb, Res.bind_ok]
  · have hw := treeEntriesW_writes g (longLink n).t ⟨[], 0⟩
    rw [hb] at hw
    obtain ⟨cap, hw⟩ := hw
    unfold encObjW encTreeW
    refine Nat.lt_of_lt_of_le ?_ (bind_cost_ge _ _)
    unfold longLink encTreeEntriesW encTreeEntryW
    refine Nat.lt_of_lt_of_le ?_ (bind_cost_ge _ _)
    obtain ⟨c1, h1⟩ := putW_writes g [b!"100644", [SP], b!"a", [NUL]] ⟨[], 0⟩
    rw [bind_cost_ok _ _ _ h1]
    simp only
    refine Nat.lt_of_lt_of_le ?_ (Nat.le_add_left _ _)
    refine Nat.lt_of_lt_of_le ?_ (bind_cost_ge _ _)
    simp [shaW, Work.spend]
    omega

/-! ## cases that meet the hypotheses -/

/-- The rules of Go's slices and of its buffers, without rounding. -/
def goRules : Rules := ⟨goGrow id, bufferGrow id⟩

theorem goRules_grow : GrowsBoth goRules := ⟨goGrow_grows id fun _ => Nat.le_refl _, bufferGrow_grows id fun _ => Nat.le_refl _⟩

/-- A tag, a tree and a commit, with the exact count. -/
def someTag : Tag :=
  { object := gitLink (List.replicate 20 7), typ := b!"commit", tag := b!"v1",
    tagger := ⟨b!"A", b!"a@b", b!"1", b!"+0000"⟩, message := b!"first\n" }

def someCommit : Commit :=
  { noCommit with
    tree := gitLink (List.replicate 20 1), parents := [gitLink (List.replicate 20 2), gitLink (List.replicate 20 3)],
    author := some ⟨b!"A", b!"a@b", b!"1", b!"+0000"⟩, committer := some ⟨b!"A", b!"a@b", b!"1", b!"+0000"⟩,
    mergetag := [someTag], message := b!"merge\n" }

example : ∃ out, encObj (.commit someCommit) = .ok out ∧ (encObjW goRules (.commit someCommit)).cost ≤ 32 * out.length ∧
    out.length ≤ (encObjW goRules (.commit someCommit)).cost := by
  refine ⟨_, rfl, encode_work_linear goRules_grow _ ?_ _ rfl, encode_work_least goRules _ _ rfl⟩
  simp [linksOf, someCommit, someTag, gitLink, GitLong]

example : ∃ o out, parseObject (⟨b!"tag 0\x00type x\n\nhi", .eof, 4096⟩ : Stream) = .ok o ∧ encObj o = .ok out ∧
    (encObjW goRules o).cost ≤ 64 * 16 + 5120 := by
  refine ⟨_, _, rfl, rfl, ?_⟩
  exact encode_work_decoded goRules_grow ⟨b!"tag 0\x00type x\n\nhi", .eof, 4096⟩ (by decide) _ rfl _ rfl

example : (encObjW goRules (.tag someTag)).cost = 652 := by decide +kernel

end Verif.Props
