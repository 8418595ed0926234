import Verif.Spec.Feed
import Verif.Proofs.Calls

/-!
# Assigning a node and giving its data call by call
-/

namespace Verif

open Spec Calls

theorem drive_append (a : Frame) (xs ys : List (Nat × Call)) :
    drive a (xs ++ ys) = drive a xs >>= fun b => drive b ys := by
  induction xs generalizing a with
  | nil => rfl
  | cons x r ih =>
    obtain ⟨d, c⟩ := x
    simp only [List.cons_append, drive]
    cases a.callAt d c with
    | ok b => exact ih b
    | err e b => rfl
    | panic => rfl
    | noHandle => rfl

theorem drive_deeper (a ch : Frame) (cs : List (Nat × Call)) :
    drive (a.setChild ch) (deeper cs) = drive ch cs >>= fun b => .ok (a.setChild b) := by
  induction cs generalizing ch with
  | nil => rfl
  | cons x r ih =>
    obtain ⟨d, c⟩ := x
    simp only [deeper, List.map_cons, drive, Frame.callAt, setChild_child]
    cases ch.callAt d c with
    | ok ch' =>
      simp only [setChild_setChild]
      exact ih ch'
    | err e b => rfl
    | panic => rfl
    | noHandle => rfl

theorem drive_call (a : Frame) (c : Call) (r : List (Nat × Call)) :
    drive a ((0, c) :: r) = match a.call c with
      | .ok b => drive b r
      | .err e _ => .err e
      | .panic => .panic
      | .noHandle => .panic := rfl

/-- What `AssignNode` gives against what the calls give; `p` if `AssignNode` panics. -/
def Matches {α : Type} (p : Prop) (val : α → Val) (r : Res α) (d : Res Frame) : Prop :=
  match r with
  | .ok a => ∃ ch, d = .ok ch ∧ DoneWith (val a) ch
  | .err e => d = .err e
  | .panic => p

def Agree {α : Type} (p : Prop) (t : T) (g : Node → Res α) (val : α → Val) : Prop :=
  ∀ n cs, Feeds n cs → Matches p val (g n) (drive (fresh t) cs)

theorem agree_text (t : T) (ht : t.shape = .text) (g : Node → Res Bytes)
    (hg : ∀ n, (∀ v, n ≠ .own v) → g n = if n.isNull then .err .wrongKind else n.asString) (p : Prop) :
    Agree p t g .text := by
  intro n cs h
  cases h <;> rw [hg _ (by intro v h; cases h)] <;>
    simp [Matches, Node.isNull, Node.asString, drive, Frame.callAt, Frame.call, Calls.assignNull, fresh, Frame.m,
      Calls.assignString, Calls.assignLink, Calls.beginList, Calls.beginMap, ht, DoneWith, Frame.w]

theorem agree_link (t : T) (ht : t.shape = .link) (g : Node → Res Link)
    (hg : ∀ n, (∀ v, n ≠ .own v) → g n = if n.isNull then .err .wrongKind else n.asLink) (p : Prop) :
    Agree p t g .link := by
  intro n cs h
  cases h <;> rw [hg _ (by intro v h; cases h)] <;>
    simp [Matches, Node.isNull, Node.asLink, drive, Frame.callAt, Frame.call, Calls.assignNull, fresh, Frame.m,
      Calls.assignString, Calls.assignLink, Calls.beginList, Calls.beginMap, ht, DoneWith, Frame.w]

theorem agree_string (p : Prop) : Agree p .string assignString .text :=
  agree_text _ rfl _ (by intro n h; cases n <;> first | rfl | exact absurd rfl (h _)) p

theorem agree_gpgSig (p : Prop) : Agree p .gpgSig assignGpgSig .text :=
  agree_text _ rfl _ (by intro n h; cases n <;> first | rfl | exact absurd rfl (h _)) p

theorem agree_lnk (p : Prop) : Agree p .link assignLink .link :=
  agree_link _ rfl _ (by intro n h; cases n <;> first | rfl | exact absurd rfl (h _)) p

theorem agree_treeLink (p : Prop) : Agree p .treeLink assignTreeLink .link :=
  agree_link _ rfl _ (by intro n h; cases n <;> first | rfl | exact absurd rfl (h _)) p

theorem agree_commitLink (p : Prop) : Agree p .commitLink assignCommitLink .link :=
  agree_link _ rfl _ (by intro n h; cases n <;> first | rfl | exact absurd rfl (h _)) p

/-! ## Lists -/

/-- A list assembler that is ready for the next element and holds `vs`. -/
def ListReady (t : T) (vs : List Val) (a : Frame) : Prop :=
  a.ty = t ∧ a.begun = true ∧ ∃ s f c, ready a = some (.mk t (.list vs) .midvalue true .initial s f c)

theorem drive_elems {α : Type} {p : Prop} {t e : T} (ht : t.shape = .list e) {g : Node → Res α} {val : α → Val}
    (hg : Agree p e g val) (ns : List Node) (cs : List (Nat × Call)) (h : FeedsList ns cs) (acc : List α) (a : Frame)
    (ha : ListReady t (acc.map val) a) :
    match assignElems g ns acc with
    | .ok l => ∃ b, drive a cs = .ok b ∧ ListReady t (l.map val) b
    | .err e => drive a cs = .err e
    | .panic => p := by
  induction ns generalizing cs acc a with
  | nil => cases h; exact ⟨a, rfl, ha⟩
  | cons n r ih =>
    cases h with
    | @cons _ _ c cs hc hcs =>
      obtain ⟨h1, h2, s, f, ch, h3⟩ := ha
      have hv : a.call .assembleValue = .ok (Frame.setChild (.mk t (.list (acc.map val)) .midvalue true .midValue s f none)
          (fresh e)) := by
        simp only [Frame.call, h2, if_true, Calls.assembleValue, h1, ht, h3, Frame.setChild]
      have hm := hg n c hc
      rw [drive_call, hv]
      simp only
      rw [drive_append, drive_deeper]
      simp only [assignElems]
      cases hgn : g n with
      | panic => rw [hgn] at hm; exact hm
      | err e =>
        rw [hgn] at hm
        simp only [Matches] at hm
        simp only [Res.bind_err, hm]
      | ok x =>
        rw [hgn] at hm
        obtain ⟨b, hb, hd⟩ := hm
        simp only [Res.bind_ok, hb]
        refine ih cs hcs (acc ++ [x]) _ ⟨rfl, rfl, s, f, none, ?_⟩
        simp only [Frame.setChild, ready, hd.1, if_true, hd.2, put, List.map_append, List.map_cons, List.map_nil]

theorem agree_list {α : Type} {p : Prop} {t e : T} (ht : t.shape = .list e) {g : Node → Res α} {val : α → Val}
    (hg : Agree p e g val) (self : Node → Option (List α)) (hs : ∀ n, (∀ v, n ≠ .own v) → self n = none) :
    Agree p t (assignList self g []) (fun l => .list (l.map val)) := by
  intro n cs h
  unfold assignList
  cases h with
  | list hint hl =>
    rename_i ns cs
    rw [hs _ (by intro v h; cases h)]
    have hb : (fresh t).call (.beginList hint) = .ok (.mk t (.list []) .midvalue true .initial 0 0 none) := by
      simp only [Frame.call, fresh, Calls.beginList, ht, zero_list ht, ite_self]
      rfl
    rw [drive_call, hb]
    simp only [Node.isNull, Node.kind, Node.listIterator]
    rw [drive_append]
    have := drive_elems ht hg ns cs hl [] (.mk t (.list []) .midvalue true .initial 0 0 none) ⟨rfl, rfl, 0, 0, none, rfl⟩
    cases hr : assignElems g ns [] with
    | panic => rw [hr] at this; exact this
    | err e => rw [hr] at this; simp only at this; simp [Matches, this]
    | ok l =>
      rw [hr] at this
      obtain ⟨b, h1, h2, h3, s, f, c, h4⟩ := this
      simp only [Bool.false_eq_true, if_false, ne_eq, not_true_eq_false, h1, Res.bind_ok]
      refine ⟨.mk t (.list (l.map val)) .value true .finished s f c, ?_, rfl, rfl⟩
      simp only [drive, Frame.callAt, Frame.call, h3, if_true, Calls.finish, h2, ht, h4]
  | _ =>
    rw [hs _ (by intro v h; cases h)]
    simp [Matches, Node.isNull, Node.kind, drive, Frame.callAt, Frame.call, Calls.assignNull, fresh, Frame.m,
      Calls.assignString, Calls.assignLink, Calls.beginMap, ht]

/-! ## Structs -/

/-- What assigning to field `i` of `w` gives against what the child of type `ty` gives. -/
def FieldMatches {W : Type} (p : Prop) (ty : T) (slots : W → List (Option Val)) (w : W) (i : Nat)
    (cs : List (Nat × Call)) (r : Res W) : Prop :=
  match r with
  | .ok w' => ∃ ch, drive (fresh ty) cs = .ok ch ∧ ch.m = .value ∧ slots w' = (slots w).set i (some ch.w)
  | .err e => drive (fresh ty) cs = .err e
  | .panic => p

/-- The struct `S` over `W` is the struct of type `t`; `slots` are the fields of a Go
value. `field`: assigning to a field that has its zero value is what its child does. -/
structure StructOf {W : Type} (p : Prop) (S : Struct W) (t : T) (fs : List FieldT) (slots : W → List (Option Val))
    (zero : W) : Prop where
  shape : t.shape = .struct fs
  names : S.fields.map Field.name = fs.map FieldT.name
  required : S.fields.map Field.required = fs.map FieldT.required
  len : ∀ w, (slots w).length = fs.length
  optional : ∀ (i : Nat) (fd : FieldT), fs[i]? = some fd → fd.required = false → (slots zero)[i]? = some none
  field : ∀ (i : Nat) (f : Field W) (fd : FieldT), S.fields[i]? = some f → fs[i]? = some fd → ∀ w n cs, (slots w)[i]? = (slots zero)[i]? →
    Feeds n cs → FieldMatches p fd.ty slots w i cs (f.assign w n)
  foreign : ∀ n, (∀ v, n ≠ .own v) → S.self n = none

section

variable {W : Type} {p : Prop} {S : Struct W} {t : T} {fs : List FieldT} {slots : W → List (Option Val)} {zero : W}

theorem StructOf.find (H : StructOf p S t fs slots zero) (k : Bytes) : S.find k = Calls.find fs k := by
  have key : ∀ {α : Type} (l : List α) (nm : α → Bytes),
      l.findIdx? (fun f => decide (nm f = k)) = (l.map nm).findIdx? (fun x => decide (x = k)) := by
    intro α l nm
    rw [List.findIdx?_map]; rfl
  unfold Struct.find Calls.find
  rw [key S.fields Field.name, key fs FieldT.name, H.names]

theorem sufficientFrom_map {W : Type} (l : List (Field W)) (r : List FieldT)
    (h : l.map Field.required = r.map FieldT.required) (i : Nat) :
    Verif.sufficientFrom i l = Calls.sufficientFrom i r := by
  induction l generalizing r i with
  | nil => cases r with
    | nil => rfl
    | cons => simp at h
  | cons f l ih => cases r with
    | nil => simp at h
    | cons g r =>
      simp only [List.map_cons, List.cons.injEq] at h
      simp only [Verif.sufficientFrom, Calls.sufficientFrom, h.1, ih r h.2]

theorem StructOf.sufficient (H : StructOf p S t fs slots zero) : S.sufficient = Calls.sufficient fs :=
  sufficientFrom_map _ _ H.required 0

theorem StructOf.length (H : StructOf p S t fs slots zero) : S.fields.length = fs.length := by
  have := congrArg List.length H.names
  simpa using this

/-- What has been given so far is in the Go value, the rest is zero. -/
structure Given (fs : List FieldT) (slots : W → List (Option Val)) (zero w : W) (l : List (Option Val)) (s : Nat) :
    Prop where
  len : l.length = fs.length
  bits : Bits s l
  there : ∀ (i : Nat) (v : Val), l[i]? = some (some v) → (slots w)[i]? = some (some v)
  out : ∀ i : Nat, l[i]? = some none → (slots w)[i]? = (slots zero)[i]?

/-- The two assemblers stand at the same place. -/
structure Level (S : Struct W) (t : T) (fs : List FieldT) (slots : W → List (Option Val)) (zero : W)
    (a : Asm W) (b : Frame) : Prop where
  ty : b.ty = t
  begun : b.begun = true
  at_ : ∃ w l s f c f' m, S.ready a = .ok { w := some w, m := m, state := .initial, s := s, f := f', cm := .absent } ∧
    ready b = some (.mk t (.struct l) .midvalue true .initial s f c) ∧ Given fs slots zero w l s

theorem given_done (H : StructOf p S t fs slots zero) {w : W} {l : List (Option Val)} {s : Nat}
    (g : Given fs slots zero w l s) (hall : AllGiven fs l) : l = slots w := by
  refine List.ext_getElem? fun i => ?_
  by_cases hi : i < l.length
  · have hl : l[i]? = some l[i] := List.getElem?_eq_getElem hi
    cases hv : l[i] with
    | some v => rw [hl, hv]; exact (g.there i v (by rw [hl, hv])).symm
    | none =>
      have hfd : fs[i]? = some (fs[i]'(by rw [← g.len]; exact hi)) := List.getElem?_eq_getElem _
      cases hr : (fs[i]'(by rw [← g.len]; exact hi)).required with
      | true =>
        obtain ⟨v, hv'⟩ := hall i _ hfd hr
        rw [hl, hv] at hv'; cases hv'
      | false => rw [hl, hv, g.out i (by rw [hl, hv]), H.optional i _ hfd hr]
  · rw [List.getElem?_eq_none (by omega), List.getElem?_eq_none (by rw [H.len, ← g.len]; omega)]

theorem drive_entries (H : StructOf p S t fs slots zero) (es : List (Bytes × Node)) (cs : List (Nat × Call))
    (h : FeedsMap es cs) (a : Asm W) (b : Frame) (hl : Level S t fs slots zero a b) :
    match S.assignEntries es a with
    | .ok a' => ∃ w ch, a'.w = some w ∧ a'.m = .value ∧ drive b (cs ++ [(0, .finish)]) = .ok ch ∧
        DoneWith (.struct (slots w)) ch
    | .err e => drive b (cs ++ [(0, .finish)]) = .err e
    | .panic => p := by
  induction es generalizing cs a b with
  | nil =>
    cases h
    obtain ⟨h1, h2, w, l, s, f, c, f', m, h3, h4, h5⟩ := hl
    simp only [Struct.assignEntries, Struct.finish, h3, Res.bind_ok, H.sufficient, List.nil_append, drive_call,
      Frame.call, h2, if_true, Calls.finish, h1, H.shape, h4]
    by_cases hs : s &&& Calls.sufficient fs ≠ Calls.sufficient fs
    · simp only [if_pos hs]
    · simp only [if_neg hs]
      have hs' := Decidable.not_not.1 hs
      refine ⟨w, _, rfl, trivial, rfl, rfl, ?_⟩
      simp only [Frame.w, given_done H h5 ((sufficient_iff h5.bits).1 hs')]
  | cons x r ih =>
    obtain ⟨k, n⟩ := x
    cases h with
    | @cons _ _ _ nm c cs hnm hc hcs =>
      obtain ⟨h1, h2, w, l, s, f, ch, f', m, h3, h4, h5⟩ := hl
      -- naming the entry
      have hname : drive b (nm ++ (deeper c ++ cs) ++ [(0, .finish)]) =
          match takeKey fs k s with
          | .ok (i, fd) => drive (Frame.setChild (.mk t (.struct l) .midvalue true .midValue (s + (1 <<< i)) i none)
              (fresh fd.ty)) (deeper c ++ (cs ++ [(0, .finish)]))
          | .err e => .err e
          | .panic => .panic := by
        rw [List.append_assoc, List.append_assoc]
        cases hnm with
        | entry =>
          simp only [List.cons_append, List.nil_append, drive_call, Frame.call, h2, if_true, Calls.assembleEntry, h1,
            H.shape, h4]
          cases takeKey fs k s with
          | ok q => rfl
          | err e => rfl
          | panic => rfl
        | keyValue =>
          have hk : b.call .assembleKey = .ok (.mk t (.struct l) .midvalue true .midKey s f ch) := by
            simp only [Frame.call, h2, if_true, Calls.assembleKey, h1, H.shape, h4]
          simp only [List.cons_append, List.nil_append]
          rw [drive_call, hk]
          simp only
          rw [drive_call]
          simp only [Frame.call, Frame.begun, if_true, Calls.keyAssign, H.shape, ne_eq, not_true_eq_false, if_false]
          cases hk : takeKey fs k s with
          | ok q =>
            obtain ⟨i, fd⟩ := q
            have hf' : fs[i]? = some fd := (takeKey_ok hk).1
            simp only
            rw [drive_call]
            simp only [Frame.call, Frame.begun, if_true, Calls.assembleValue, Frame.ty, H.shape, hf', Frame.setChild]
          | err e => rfl
          | panic => rfl
      rw [hname]
      -- the same on the other side
      simp only [Struct.assignEntries, Struct.assembleKey, h3, Res.bind_ok, Struct.keyAssignNode, Node.asString,
        Struct.keyAssignString, ne_eq, not_true_eq_false, if_false, H.find]
      unfold takeKey
      cases hf : Calls.find fs k with
      | none => simp only [Res.bind_err]
      | some i =>
        simp only
        by_cases hb : s &&& (1 <<< i) ≠ 0
        · simp only [if_pos hb, Res.bind_err]
        · simp only [if_neg hb, Res.bind_ok, Struct.assembleValue, ne_eq, not_true_eq_false, if_false]
          have hlt : i < fs.length := by
            unfold Calls.find at hf
            exact (List.findIdx?_eq_some_iff_getElem.1 hf).1
          have hfd : fs[i]? = some fs[i] := List.getElem?_eq_getElem hlt
          have hfS : S.fields[i]? = some (S.fields[i]'(by rw [H.length]; exact hlt)) := List.getElem?_eq_getElem _
          simp only [hfd, H.length, if_pos hlt, Res.bind_ok, Struct.childAssign, ne_eq, not_true_eq_false, if_false,
            hfS]
          have hli : l[i]? = some none := by
            have hil : i < l.length := by rw [h5.len]; exact hlt
            rw [List.getElem?_eq_getElem hil]
            cases hv : l[i] with
            | none => rfl
            | some v =>
              have := (h5.bits i).2 ⟨v, by rw [List.getElem?_eq_getElem hil, hv]⟩
              exact absurd ((and_bit_ne_zero s i).2 this) hb
          have hfield := H.field i _ _ hfS hfd w n c (h5.out i hli) hc
          rw [drive_append, drive_deeper]
          revert hfield
          cases (S.fields[i]'(by rw [H.length]; exact hlt)).assign w n with
          | panic => exact id
          | err e => intro hfield; simp only [FieldMatches] at hfield; simp only [Res.bind_err, hfield]
          | ok w' =>
            rintro ⟨b', hb1, hb2, hb3⟩
            simp only [Res.bind_ok, hb1]
            refine ih cs hcs _ _ ⟨rfl, rfl, w', l.set i (some b'.w), s + (1 <<< i), i, none, i, m, ?_, ?_, ?_⟩
            · simp [Struct.ready, Struct.tidy, H.length, hlt]
            · simp only [Frame.setChild, ready, hb2, if_true, put]
            · refine ⟨by simp [h5.len], bits_add h5.bits hli _, ?_, ?_⟩
              · intro j v hj
                rw [hb3]
                by_cases hij : i = j
                · subst hij
                  rw [List.getElem?_set_self (by rw [h5.len]; exact hlt)] at hj
                  rw [List.getElem?_set_self (by rw [H.len]; exact hlt)]
                  exact hj
                · rw [List.getElem?_set_ne hij] at hj ⊢
                  exact h5.there j v hj
              · intro j hj
                rw [hb3]
                by_cases hij : i = j
                · subst hij
                  rw [List.getElem?_set_self (by rw [h5.len]; exact hlt)] at hj
                  cases hj
                · rw [List.getElem?_set_ne hij] at hj ⊢
                  exact h5.out j hj

theorem agree_struct (H : StructOf p S t fs slots zero) :
    Agree p t (S.child (some zero)) (fun w => .struct (slots w)) := by
  intro n cs h
  unfold Struct.child Struct.assignNode
  cases h with
  | map hm =>
    rename_i es cs
    rw [H.foreign _ (by intro v h; cases h)]
    have hb : (fresh t).call .beginMap = .ok (.mk t (.struct (fs.map fun _ => none)) .midvalue true .initial 0 0 none) := by
      simp only [Frame.call, fresh, Calls.beginMap, H.shape, zero_struct H.shape]
      rfl
    rw [drive_call, hb]
    simp only [Node.isNull, Node.kind, Node.mapIterator]
    have := drive_entries H es cs hm (Asm.fresh (some zero))
      (.mk t (.struct (fs.map fun _ => none)) .midvalue true .initial 0 0 none)
      ⟨rfl, rfl, zero, _, 0, 0, none, 0, .absent, rfl, rfl, by simp, bits_zero fs, by
        intro i v h
        rw [List.getElem?_map] at h
        cases hx : fs[i]? <;> rw [hx] at h <;> simp at h, by intros; rfl⟩
    cases hr : S.assignEntries es (Asm.fresh (some zero)) with
    | panic => rw [hr] at this; exact this
    | err e => rw [hr] at this; simp only at this; simp [Matches, this]
    | ok a =>
      rw [hr] at this
      obtain ⟨w, ch, h1, h2, h3, h4⟩ := this
      simp only [Bool.false_eq_true, if_false, ne_eq, not_true_eq_false, Res.bind_ok, Asm.build, h1, h2]
      exact ⟨ch, h3, h4⟩
  | _ =>
    rw [H.foreign _ (by intro v h; cases h)]
    simp [Matches, Node.isNull, Node.kind, drive, Frame.callAt, Frame.call, Calls.assignNull, fresh, Frame.m,
      Calls.assignString, Calls.assignLink, Calls.beginList, H.shape, Asm.fresh]

end

end Verif
