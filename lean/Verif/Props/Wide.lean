import Verif.Spec.Wide
import Verif.Props.Links
import Verif.Props.Accept

/-!
# C111 What becomes of objects of SHA-256 repositories
-/

namespace Verif.Props

open Verif Spec

theorem wideRef_line {w x hash : Bytes} (hx : WideRef x hash) (hw : LF ∉ w) (hl : w.length ≤ 7) (N : Nat) (hN : 72 ≤ N) :
    HeaderLine N (w ++ x) := by
  have hlen := hexOf_length hx.1
  rw [hx.2] at hlen
  have hge := hexOf_ge hx.1
  refine ⟨?_, ?_, ?_⟩
  · simp only [List.mem_append, not_or]
    refine ⟨hw, fun hm => ?_⟩
    have := hge _ hm
    revert this; decide
  · intro h
    rw [List.getLast?_append] at h
    cases hxl : x.getLast? with
    | none =>
      rw [List.getLast?_eq_none_iff] at hxl
      subst hxl
      simp at hlen
    | some c =>
      rw [hxl] at h
      have hc : c = CR := by simpa using h
      have := hge c (List.mem_of_getLast? hxl)
      subst hc
      revert this; decide
  · simp only [List.length_append]; omega

theorem wideRef_refused {α : Type} {x hash : Bytes} (hx : WideRef x hash) (f : Cid → Res α) :
    (hexDecode x >>= fun sha => shaToCid sha >>= f) = .err .badSha := by
  rw [(hexDecode_iff _ _).2 hx.1, Res.bind_ok, sha_to_link_rejects hash (by rw [hx.2]; decide)]
  rfl

/-- A commit is refused. -/
theorem wide_commit {d x hash r : Bytes} (hd : SizeText d) (hx : WideRef x hash) (e : Err) (N : Nat) (hN : 72 ≤ N) :
    parseObject (σ := Stream) ⟨b!"commit " ++ d ++ NUL :: (b!"tree " ++ x ++ LF :: r), e, N⟩ = .err .badSha := by
  have hN2 : 2 ≤ N := by omega
  rw [parse_commit_size hd, commitRun_line _ _ _ _ _ hN2 (wideRef_line hx (by decide) (by decide) N hN),
    commitLineRun_eq _ _ _ hN2]
  rw [if_pos (hasPrefix_append _ _), sliceFrom_append b!"tree " _ 5 rfl, Res.bind_ok, wideRef_refused hx]
  rfl

/-- A tag is refused. -/
theorem wide_tag {d x hash r : Bytes} (hd : NUL ∉ d) (hx : WideRef x hash) (e : Err) (N : Nat) (hN : 72 ≤ N) :
    parseObject (σ := Stream) ⟨b!"tag " ++ d ++ NUL :: (b!"object " ++ x ++ LF :: r), e, N⟩ = .err .badSha := by
  have hN2 : 2 ≤ N := by omega
  rw [parse_tag_nul _ _ _ _ hd, tagRun_line _ _ _ _ _ hN2 (wideRef_line hx (by decide) (by decide) N hN)]
  unfold tagLine
  rw [if_pos (hasPrefix_append _ _), sliceFrom_append b!"object " _ 7 rfl, Res.bind_ok, wideRef_refused hx]
  rfl

/-! ## Trees -/

theorem shifted_body (ws : List Wide) (p : Bytes) :
    p ++ wideBody ws = treeBody (shifted p ws) ++ (ws.getLast?.map Wide.tail).getD p := by
  induction ws generalizing p with
  | nil => simp [wideBody, treeBody, shifted]
  | cons w ws ih =>
    have h1 : p ++ wideBody (w :: ws) = (⟨p ++ w.mode, w.name, w.head⟩ : Entry).text ++ (w.tail ++ wideBody ws) := by
      simp [wideBody, Wide.text, Entry.text]
    have h2 : ((w :: ws).getLast?.map Wide.tail).getD p = (ws.getLast?.map Wide.tail).getD w.tail := by
      cases ws with
      | nil => rfl
      | cons v ws => rw [List.getLast?_cons_cons, List.getLast?_cons]; rfl
    rw [h1, ih, h2]
    simp [shifted, treeBody]

theorem shifted_names (ws : List Wide) (p : Bytes) : (shifted p ws).map (·.name) = ws.map (·.name) := by
  induction ws generalizing p with
  | nil => rfl
  | cons w ws ih => simp [shifted, ih]

theorem shifted_ok {ws : List Wide} (h : ∀ w ∈ ws, w.Ok) (p : Bytes) :
    (∀ e ∈ shifted p ws, EntryOk e) ↔ (ws ≠ [] → SP ∉ p) ∧ ∀ w ∈ ws.dropLast, SP ∉ w.tail := by
  induction ws generalizing p with
  | nil => simp [shifted]
  | cons w ws ih =>
    have hw := h w (by simp)
    rw [shifted]
    simp only [List.mem_cons, forall_eq_or_imp]
    rw [ih (fun v hv => h v (List.mem_cons_of_mem _ hv))]
    have e1 : EntryOk ⟨p ++ w.mode, w.name, w.head⟩ ↔ SP ∉ p := by
      constructor
      · intro h' hm; exact h'.mode (List.mem_append_left _ hm)
      · intro hp
        exact ⟨by simp only [List.mem_append, not_or]; exact ⟨hp, hw.mode⟩, hw.name, hw.head⟩
    rw [e1]
    cases ws with
    | nil => simp
    | cons v ws => simp [List.dropLast]

theorem row_inj {e f : Entry} (h : e.row = f.row) : e = f := by
  cases e; cases f
  simp only [Entry.row, gitLink, Prod.mk.injEq, TreeEntry.mk.injEq, Link.cid.injEq, Cid.mk.injEq, List.cons.injEq, true_and] at h
  simp_all

/-- A tree is read with all its names, each hash cut to twenty bytes and the rest of it
before the next mode, exactly if these rests have no space, but the last that may
have one, and no name is repeated. -/
theorem wide_tree {d : Bytes} {z : Int} (hd : SizeField d z) {ws : List Wide} (h : ∀ w ∈ ws, w.Ok) (N : Nat) :
    (∃ t, parseObject (σ := Stream) ⟨b!"tree " ++ d ++ NUL :: wideBody ws, .eof, N⟩ = .ok (.tree t) ∧
        t.t = (shifted [] ws).map Entry.row) ↔
      (∀ w ∈ ws.dropLast, SP ∉ w.tail) ∧ TreeTail (lastTail ws) ∧ (ws.map (·.name)).Nodup := by
  have hb := shifted_body ws []
  rw [List.nil_append] at hb
  rw [tree_accepts]
  constructor
  · rintro ⟨_, d', z', es, tail, hd', he, hes, ht, hr⟩
    have hes' : es = shifted [] ws := by
      have : es.map Entry.row = (shifted [] ws).map Entry.row := hr.symm
      exact (List.map_inj_right (fun _ _ => row_inj)).1 this
    subst hes'
    have he' : d ++ NUL :: wideBody ws = d' ++ NUL :: (treeBody (shifted [] ws) ++ tail) := by
      simpa using he
    have h1 := splitAt_notin NUL d (wideBody ws) hd.1
    rw [he', splitAt_notin NUL d' _ hd'.1] at h1
    simp only [Option.some.injEq, Prod.mk.injEq] at h1
    have h2 := h1.2
    rw [hb] at h2
    have h3 := List.append_cancel_left h2
    refine ⟨((shifted_ok h []).1 hes.each).2, ?_, ?_⟩
    · unfold lastTail; rw [← h3]; exact ht
    · rw [← shifted_names ws []]; exact hes.distinct
  · rintro ⟨h1, h2, h3⟩
    exact ⟨rfl, d, z, shifted [] ws, lastTail ws, hd, by rw [hb]; rfl,
      ⟨(shifted_ok h []).2 ⟨by simp, h1⟩, by rw [shifted_names]; exact h3⟩, h2, rfl⟩

/-- What is written for it lacks the last twelve bytes. -/
theorem wide_tree_written {ws : List Wide} (h : ∀ w ∈ ws, w.Ok) (hs : ∀ w ∈ ws.dropLast, SP ∉ w.tail) (t : Tree)
    (ht : t.t = (shifted [] ws).map Entry.row) :
    ∃ body, encTree t = .ok (withHeader b!"tree" body) ∧ wideBody ws = body ++ lastTail ws ∧
      (ws ≠ [] → (lastTail ws).length = 12) := by
  refine ⟨treeBody (shifted [] ws), ?_, shifted_body ws [], ?_⟩
  · unfold encTree
    rw [ht, encTreeEntries_rows _ ((shifted_ok h []).2 ⟨by simp, hs⟩)]
    rfl
  · intro hne
    rw [lastTail, List.getLast?_eq_some_getLast hne]
    exact (h _ (List.getLast_mem hne)).tail

namespace WideExample

/-- Two files; the first hash ends in twelve bytes `0xaa`. -/
def ws : List Wide :=
  [⟨b!"100644", b!"a", List.replicate 20 1, List.replicate 12 0xaa⟩,
   ⟨b!"100644", b!"b", List.replicate 20 2, List.replicate 12 0xbb⟩]

theorem ws_ok : ∀ w ∈ ws, w.Ok := by
  intro w hw
  simp only [ws, List.mem_cons, List.not_mem_nil, or_false] at hw
  rcases hw with rfl | rfl <;> exact ⟨by decide, by decide, by decide, by decide⟩

/-- The size of their tree. -/
theorem size : SizeField b!"82" 82 :=
  ⟨by decide, ⟨b!"82", by decide, by simp [Digit], .inl ⟨rfl, by decide⟩⟩, by decide, by decide⟩

/-- It is read. -/
example (N : Nat) : ∃ t, parseObject (σ := Stream) ⟨b!"tree 82" ++ NUL :: wideBody ws, .eof, N⟩ = .ok (.tree t) ∧
    t.t = [Entry.row ⟨b!"100644", b!"a", List.replicate 20 1⟩,
      Entry.row ⟨List.replicate 12 0xaa ++ b!"100644", b!"b", List.replicate 20 2⟩] :=
  (wide_tree size ws_ok N).2 ⟨by decide, Or.inl (by decide), by decide⟩

/-- A reference of 64 digits. -/
theorem ref : WideRef (List.replicate 64 0x61) (List.replicate 32 0xaa) :=
  ⟨(hexDecode_iff _ _).1 (by decide +kernel), by decide⟩

example (r : Bytes) (e : Err) : parseObject (σ := Stream)
    ⟨b!"commit 300" ++ NUL :: (b!"tree " ++ List.replicate 64 0x61 ++ LF :: r), e, 4096⟩ = .err .badSha :=
  wide_commit (d := b!"300") (sizeText_decimal 300 (by decide)) ref e 4096 (by decide)

example (r : Bytes) (e : Err) : parseObject (σ := Stream)
    ⟨b!"tag 300" ++ NUL :: (b!"object " ++ List.replicate 64 0x61 ++ LF :: r), e, 4096⟩ = .err .badSha :=
  wide_tag (d := b!"300") (by decide) ref e 4096 (by decide)

end WideExample

end Verif.Props
