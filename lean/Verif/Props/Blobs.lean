import Verif.Proofs.Blobs

/-!
# C91: whom a blob shares its bytes with
-/

namespace Verif.Props

open Verif Blobs Spec.Blobs

/-- Whatever a client did before: of all it can do next, only writing to a slice whose
element is one of the blob's changes a blob it holds, and then just in that byte. -/
theorem blob_changes (as : List Act) (a : Act) (x : Nat) (hx : x ∈ (play as start).nodes) :
    let w := play as start
    (step a w).1.content x =
      match a with
      | .poke h i c =>
        match w.held[h]? with
        | some s =>
          if i < s.len ∧ Reaches s i (w.cells.getD x nil) then
            (w.content x).set (s.off + i - (w.cells.getD x nil).off) c
          else w.content x
        | none => w.content x
      | _ => w.content x := by
  have S := safe_play as safe_start
  generalize play as start = w at *
  have hc := step_keeps S a x hx
  have other : (∀ h i c, a ≠ .poke h i c) → (step a w).1.content x = w.content x := by
    intro ha
    unfold World.content World.bytes
    rw [hc, step_arrays a w _ (S.cells x) ha]
  cases a with
  | poke h i c =>
    simp only
    cases hs : w.held[h]? with
    | none => simp only [step, hs]
    | some s =>
      simp only
      by_cases hi : i < s.len
      · unfold World.content at *
        rw [hc, poke_bytes w h i c s hs hi]
        by_cases hr : Reaches s i (w.cells.getD x nil)
        · rw [if_pos hr, if_pos ⟨hi, hr⟩]
        · rw [if_neg hr, if_neg (fun h => hr h.2)]
      · rw [if_neg (fun h => hi h.1)]
        simp only [step, hs, if_neg hi]
  | _ => exact other (fun h i c e => by cases e)

/-- Two nodes, or a node and a slice, that agree once in where their bytes are have the
same bytes ever after. -/
theorem node_keeps (as bs : List Act) (x : Nat) (hx : x ∈ (play as start).nodes) :
    (play bs (play as start)).cells.getD x nil = (play as start).cells.getD x nil := by
  have S := safe_play as safe_start
  generalize play as start = w at *
  induction bs generalizing w with
  | nil => rfl
  | cons b bs ih =>
    show (play bs (step b w).1).cells.getD x nil = _
    rw [ih _ (step_nodes b w x hx) (safe_step S b), step_keeps S b x hx]

/-- A blob built from a slice, by `AssignBytes` or by `FromBytes`, is that slice for
good: whatever is written to the one is read from the other. -/
theorem blob_is_slice (as : List Act) (k h : Nat) (s : Slice) (hs : (play as start).held[h]? = some s) :
    (∀ b, (play as start).builders[k]? = some b → b.done = false →
      ∃ x, (play (as ++ [.assignBytes k h, .build k]) start).nodes = (play as start).nodes ++ [x] ∧
        ∀ bs, (play (as ++ [.assignBytes k h, .build k] ++ bs) start).content x =
          (play (as ++ [.assignBytes k h, .build k] ++ bs) start).bytes s) ∧
    ∃ x, (play (as ++ [.fromBytes h]) start).nodes = (play as start).nodes ++ [x] ∧
      ∀ bs, (play (as ++ [.fromBytes h] ++ bs) start).content x =
        (play (as ++ [.fromBytes h] ++ bs) start).bytes s := by
  have app : ∀ (a b : List Act) (w : World), play (a ++ b) w = play b (play a w) := by
    intro a
    induction a with
    | nil => intro b w; rfl
    | cons a as ih => intro b w; exact ih b _
  have S := safe_play as safe_start
  refine ⟨fun b hb hd => ?_, ?_⟩
  · have h1 : play [.assignBytes k h, .build k] (play as start) =
        { play as start with
          cells := (play as start).cells.set b.w s
          builders := (play as start).builders.set k ⟨b.w, true⟩
          nodes := (play as start).nodes ++ [b.w] } := by
      have hk : k < (play as start).builders.length := (List.getElem?_eq_some_iff.1 hb).1
      simp only [play, step, hs, assign, hb, hd, Bool.false_eq_true, if_false, List.getElem?_set, if_true,
        if_pos hk]
    have hn : (play (as ++ [.assignBytes k h, .build k]) start).nodes = (play as start).nodes ++ [b.w] := by
      rw [app, h1]
    refine ⟨b.w, hn, fun bs => ?_⟩
    have hc := node_keeps (as ++ [.assignBytes k h, .build k]) bs b.w (by rw [hn]; simp)
    rw [← app] at hc
    unfold World.content
    rw [hc, app as, h1]
    simp only
    rw [getD_set, if_pos ⟨rfl, S.owns k b hb⟩]
  · have h1 : play [.fromBytes h] (play as start) =
        { play as start with
          cells := (play as start).cells ++ [s]
          nodes := (play as start).nodes ++ [(play as start).cells.length] } := by
      simp only [play, step, hs]
    have hn : (play (as ++ [.fromBytes h]) start).nodes =
        (play as start).nodes ++ [(play as start).cells.length] := by rw [app, h1]
    refine ⟨(play as start).cells.length, hn, fun bs => ?_⟩
    have hc := node_keeps (as ++ [.fromBytes h]) bs (play as start).cells.length (by rw [hn]; simp)
    rw [← app] at hc
    unfold World.content
    rw [hc, app as, h1]
    simp only
    rw [getD_append, if_pos rfl]

/-- What `AsBytes` returns is the blob itself, and so is a blob assigned from it. -/
theorem blob_is_given (as : List Act) (k n x : Nat) (hn : (play as start).nodes[n]? = some x) :
    (∃ s, (play (as ++ [.asBytes n]) start).held = (play as start).held ++ [s] ∧
      ∀ bs, (play (as ++ [.asBytes n] ++ bs) start).bytes s =
        (play (as ++ [.asBytes n] ++ bs) start).content x) ∧
    ∀ b, (play as start).builders[k]? = some b → b.done = false →
      ∃ y, (play (as ++ [.assignNode k n, .build k]) start).nodes = (play as start).nodes ++ [y] ∧ y ≠ x ∧
        ∀ bs, (play (as ++ [.assignNode k n, .build k] ++ bs) start).content y =
          (play (as ++ [.assignNode k n, .build k] ++ bs) start).content x := by
  have app : ∀ (a b : List Act) (w : World), play (a ++ b) w = play b (play a w) := by
    intro a
    induction a with
    | nil => intro b w; rfl
    | cons a as ih => intro b w; exact ih b _
  have S := safe_play as safe_start
  have hx : x ∈ (play as start).nodes := List.mem_of_getElem? hn
  refine ⟨?_, fun b hb hd => ?_⟩
  · have h1 : play [.asBytes n] (play as start) =
        { play as start with held := (play as start).held ++ [(play as start).cells.getD x nil] } := by
      simp only [play, step, hn]
    refine ⟨(play as start).cells.getD x nil, by rw [app, h1], fun bs => ?_⟩
    have hc := node_keeps as (.asBytes n :: bs) x hx
    rw [← app, show as ++ Act.asBytes n :: bs = as ++ [.asBytes n] ++ bs by simp] at hc
    unfold World.content
    rw [hc]
  · have h1 : play [.assignNode k n, .build k] (play as start) =
        { play as start with
          cells := (play as start).cells.set b.w ((play as start).cells.getD x nil)
          builders := (play as start).builders.set k ⟨b.w, true⟩
          nodes := (play as start).nodes ++ [b.w] } := by
      have hk : k < (play as start).builders.length := (List.getElem?_eq_some_iff.1 hb).1
      simp only [play, step, hn, assign, hb, hd, Bool.false_eq_true, if_false, List.getElem?_set, if_true,
        if_pos hk]
    have hns : (play (as ++ [.assignNode k n, .build k]) start).nodes = (play as start).nodes ++ [b.w] := by
      rw [app, h1]
    refine ⟨b.w, hns, fun he => S.free k b hb hd (he ▸ hx), fun bs => ?_⟩
    have hc := node_keeps (as ++ [.assignNode k n, .build k]) bs b.w (by rw [hns]; simp)
    have hc' := node_keeps as ([.assignNode k n, .build k] ++ bs) x hx
    rw [← app] at hc
    rw [← app, ← List.append_assoc] at hc'
    unfold World.content
    rw [hc, hc', app as, h1]
    simp only
    rw [getD_set, if_pos ⟨rfl, S.owns k b hb⟩]

/-- A decoded blob keeps its bytes as long as no blob on its memory was asked for them:
nothing else the client does changes it, or any blob assigned from it. -/
theorem decoded_private (as bs : List Act) (k : Nat) (s : Stream) (spare d : Bytes)
    (hd : decodeBlob s = .ok d) (hok : (step (.decode k s spare) (play as start)).2 = .ok)
    (hb : NeverAsks (play as start).arrays.length bs (step (.decode k s spare) (play as start)).1) :
    (∃ b, (play as start).builders[k]? = some b ∧
      ((step (.decode k s spare) (play as start)).1.cells.getD b.w nil).arr = (play as start).arrays.length) ∧
    ∀ x, ((play bs (step (.decode k s spare) (play as start)).1).cells.getD x nil).arr =
        (play as start).arrays.length →
      (play bs (step (.decode k s spare) (play as start)).1).content x = d := by
  have S := safe_play as safe_start
  generalize play as start = w at *
  have hpos := S.zero
  cases hk : w.builders[k]? with
  | none => simp only [step, hk] at hok; cases hok
  | some b =>
    by_cases hdone : b.done
    · simp only [step, hk, hd, assign, hdone, if_true] at hok; cases hok
    · have h1 : (step (.decode k s spare) w).1 =
          { w with
            arrays := w.arrays ++ [d ++ spare]
            cells := w.cells.set b.w ⟨w.arrays.length, 0, d.length, (d ++ spare).length⟩
            builders := w.builders.set k ⟨b.w, true⟩ } := by
        simp only [step, hk, hd, assign, hdone, Bool.false_eq_true, if_false]
      refine ⟨⟨b, rfl, ?_⟩, fun x hx => ?_⟩
      · rw [h1]
        simp only
        rw [getD_set, if_pos ⟨rfl, S.owns k b hk⟩]
      · refine private_content (private_play (spare := spare) (by omega) bs ?_ hb) x hx
        rw [h1]
        refine ⟨by simp, fun h t ht => ?_, fun y => ?_⟩
        · have := S.held h t ht
          omega
        · simp only
          rw [getD_set]
          split
          · exact fun _ => rfl
          · intro he
            have := S.cells y
            omega

/-- When a call of a builder succeeds: assigning once, building only then, any number of
times and always the same node, until `Reset`. What fails or panics changes nothing but,
at most, memory nobody holds. -/
theorem blob_protocol (as : List Act) (k : Nat) (b : Builder) (hk : (play as start).builders[k]? = some b) :
    let w := play as start
    (b.done = false →
      (∀ h s, w.held[h]? = some s → (step (.assignBytes k h) w).2 = .ok) ∧
      (∀ n x, w.nodes[n]? = some x → (step (.assignNode k n) w).2 = .ok) ∧
      (∀ s spare, (step (.decode k s spare) w).2 =
        match decodeBlob s with | .ok _ => .ok | .err e => .err e | .panic => .panic) ∧
      (step (.build k) w) = (w, .panic) ∧ (step (.assignNull k) w) = (w, .err .wrongKind)) ∧
    (b.done = true →
      (∀ h s, w.held[h]? = some s → step (.assignBytes k h) w = (w, .panic)) ∧
      (∀ n x, w.nodes[n]? = some x → step (.assignNode k n) w = (w, .panic)) ∧
      (∀ s spare, decodeBlob s ≠ .panic → (∀ e, decodeBlob s ≠ .err e) →
        (step (.decode k s spare) w).2 = .panic ∧
        (step (.decode k s spare) w).1 =
          { w with arrays := (step (.decode k s spare) w).1.arrays }) ∧
      step (.build k) w = ({ w with nodes := w.nodes ++ [b.w] }, .ok) ∧
      step (.assignNull k) w = (w, .panic)) ∧
    step (.assignOther k) w = (w, .err .wrongKind) ∧
    ∃ x, (step (.reset k) w).1.builders[k]? = some ⟨x, false⟩ ∧ x ∉ w.nodes := by
  have S := safe_play as safe_start
  generalize play as start = w at *
  refine ⟨fun hd => ⟨?_, ?_, ?_, ?_, ?_⟩, fun hd => ⟨?_, ?_, ?_, ?_, ?_⟩, ?_, w.cells.length, ?_, ?_⟩
  · intro h s hs; simp [step, hs, assign, hk, hd]
  · intro n x hn; simp [step, hn, assign, hk, hd]
  · intro s spare
    simp only [step, hk]
    cases decodeBlob s <;> simp [assign, hk, hd]
  · simp [step, hk, hd]
  · simp [step, hk, hd]
  · intro h s hs; simp [step, hs, assign, hk, hd]
  · intro n x hn; simp [step, hn, assign, hk, hd]
  · intro s spare h1 h2
    cases h : decodeBlob s with
    | err e => exact absurd h (h2 e)
    | panic => exact absurd h h1
    | ok d => simp [step, hk, h, assign, hd]
  · simp [step, hk, hd]
  · simp [step, hk, hd]
  · simp [step, hk]
  · have := (List.getElem?_eq_some_iff.1 hk).1
    simp [step, hk, List.getElem?_set, this]
  · intro hx
    exact Nat.lt_irrefl _ (S.nodes _ hx)

/-! ### Cases -/

/-- The hypotheses of `decoded_private` hold for a client that goes on with a slice of its
own. -/
example : ∀ x, ((play [.build 0, .alloc b!"a" [], .poke 0 0 98]
      (step (.decode 0 ⟨b!"1\x00a", .eof, 16⟩ []) (play [.newBuilder] start)).1).cells.getD x nil).arr = 1 →
    (play [.build 0, .alloc b!"a" [], .poke 0 0 98]
      (step (.decode 0 ⟨b!"1\x00a", .eof, 16⟩ []) (play [.newBuilder] start)).1).content x = b!"blob 1\x00a" :=
  (decoded_private [.newBuilder] [.build 0, .alloc b!"a" [], .poke 0 0 98] 0 ⟨b!"1\x00a", .eof, 16⟩ []
    b!"blob 1\x00a" (by decide +kernel) (by decide +kernel)
    ⟨(by rintro ⟨n, x, h, -⟩; cases h), (by rintro ⟨n, x, h, -⟩; cases h), (by rintro ⟨n, x, h, -⟩; cases h),
      trivial⟩).2

/-- A slice is assigned and changed afterwards: so is the blob; its room for more is not
part of the blob. -/
example : (play [.alloc b!"blob 1\x00a" b!"zz", .newBuilder, .assignBytes 0 0, .build 0, .poke 0 7 98] start).content 0
    = b!"blob 1\x00b" := by decide +kernel

/-- A decoded blob, a blob assigned from it, and a write through the bytes of the
second: both change. -/
example : let w := play [.newBuilder, .decode 0 ⟨b!"1\x00a", .eof, 16⟩ b!"zz", .build 0, .newBuilder, .assignNode 1 0,
      .build 1, .asBytes 1, .poke 0 7 98] start
    w.content 0 = b!"blob 1\x00b" ∧ w.content 1 = b!"blob 1\x00b" := by decide +kernel

/-- The same with a slice of the client's own instead. -/
example : let w := play [.newBuilder, .decode 0 ⟨b!"1\x00a", .eof, 16⟩ b!"zz", .build 0, .newBuilder, .assignNode 1 0,
      .build 1, .alloc b!"blob 1\x00a" [], .poke 0 7 98] start
    w.content 0 = b!"blob 1\x00a" ∧ w.content 1 = b!"blob 1\x00a" := by decide +kernel

end Verif.Props
