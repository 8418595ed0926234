import Verif.Proofs.Calls

/-!
# Builders driven call by call

C46: whatever calls a client makes on a builder and the handles it gives out, and
in whatever order, the value that `Build` returns is the one that the calls which
returned no error spell out; the calls that returned an error have no effect; and
every way to spell out a value works. C47: what protects a value once it is built,
and what does not.
-/

namespace Verif.Props

open Verif Spec Calls

/-! ## C46 -/

/-- Whatever a client does, if no call panics and `Build` returns a value, then the
calls that returned no error spell out that value. -/
theorem builder_sound {t : T} {cs good : List (Nat × Call)} {a : Frame} {v : Val}
    (hp : play (fresh t) cs = some (a, good)) (hb : a.build = .ok v) : Makes t v good := by
  have h := play_inv (.idle t) hp
  unfold Frame.build at hb
  split at hb
  · rename_i hm
    cases hb
    exact partial_value h hm
  · cases hb

/-- Calls that spell out a value all succeed, and build it. -/
theorem builder_complete {t : T} {cs : List (Nat × Call)} {v : Val} (h : Makes t v cs) :
    ∃ a, play (fresh t) cs = some (a, cs) ∧ a.build = .ok v := by
  obtain ⟨a, hp, hm, hw⟩ := makes_play h
  refine ⟨a, hp, ?_⟩
  unfold Frame.build
  rw [if_pos hm, hw]

/-- The same calls never spell out two values. -/
theorem makes_unique {t : T} {cs : List (Nat × Call)} {v v' : Val} (h : Makes t v cs)
    (h' : Makes t v' cs) : v = v' := by
  obtain ⟨a, hp, hb⟩ := builder_complete h
  obtain ⟨a', hp', hb'⟩ := builder_complete h'
  rw [hp] at hp'
  cases hp'
  rw [hb] at hb'
  cases hb'
  rfl

theorem makes_nonempty {t : T} {v : Val} {cs : List (Nat × Call)} (h : Makes t v cs) : cs ≠ [] := by
  cases h <;> simp

theorem mem_deeper {d : Nat} {c : Call} {cs : List (Nat × Call)} (h : (d, c) ∈ cs) :
    (d + 1, c) ∈ deeper cs := by
  unfold deeper
  exact List.mem_map.2 ⟨(d, c), h, rfl⟩

theorem makes_complete {t : T} {v : Val} {cs : List (Nat × Call)} (h : Makes t v cs) :
    (∀ d u x, (d, Call.assignSelf u x) ∈ cs → Complete u x) → Complete t v :=
  Makes.rec
    (motive_1 := fun t v cs _ => (∀ d u x, (d, Call.assignSelf u x) ∈ cs → Complete u x) → Complete t v)
    (motive_2 := fun e vs cs _ => (∀ d u x, (d, Call.assignSelf u x) ∈ cs → Complete u x) →
      ∀ v ∈ vs, Complete e v)
    (motive_3 := fun fs l cs _ => (∀ d u x, (d, Call.assignSelf u x) ∈ cs → Complete u x) →
      l.length = fs.length ∧
      ∀ (i : Nat) (fd : FieldT) (v : Val), FieldAt fs i fd → l[i]? = some (some v) → Complete fd.ty v)
    (fun h b _ => .text h b)
    (fun h l _ => .link h l)
    (fun v hw => hw 0 _ v (List.mem_singleton.2 rfl))
    (by
      intro t e h n vs cs _ ih hw
      exact .list h _ (ih fun d u x hx => hw d u x (by simp [hx])))
    (by
      intro t fs h l cs _ hg ih hw
      have := ih fun d u x hx => hw d u x (by simp [hx])
      exact .struct h _ this.1 hg this.2)
    (fun _ v hv => by cases hv)
    (by
      intro e vs cs v c _ _ ih1 ih2 hw x hx
      rcases List.mem_append.1 hx with hx | hx
      · exact ih1 (fun d u y hy => hw d u y (by simp [hy])) x hx
      · rw [List.mem_singleton.1 hx]
        exact ih2 fun d u y hy => hw (d + 1) u y (by simp [mem_deeper hy]))
    (by
      intro fs _
      refine ⟨by simp, fun i fd v _ hv => ?_⟩
      rw [List.getElem?_map] at hv
      cases hf : fs[i]? <;> rw [hf] at hv <;> cases hv)
    (by
      intro fs l cs i fd nm v c _ hf hl _ _ ih1 ih2 hw
      obtain ⟨hlen, hall⟩ := ih1 fun d u y hy => hw d u y (by simp [hy])
      refine ⟨by simpa using hlen, fun j fd' v' hf' hv' => ?_⟩
      by_cases hij : i = j
      · subst hij
        have e : some fd = some fd' := (show fs[i]? = some fd from hf).symm.trans hf'
        cases e
        have hlt : i < l.length := by
          rcases Nat.lt_or_ge i l.length with h | h
          · exact h
          · rw [List.getElem?_eq_none h] at hl; cases hl
        rw [List.getElem?_set_self hlt] at hv'
        cases hv'
        exact ih2 fun d u y hy => hw (d + 1) u y (by simp [mem_deeper hy])
      · rw [List.getElem?_set_ne hij] at hv'
        exact hall j fd' v' hf' hv')
    h

/-- A builder never returns a value in which a required field is missing, at any
depth, unless it was given such a value whole. -/
theorem built_complete {t : T} {cs good : List (Nat × Call)} {a : Frame} {v : Val}
    (hp : play (fresh t) cs = some (a, good)) (hb : a.build = .ok v)
    (hw : ∀ d u x, (d, Call.assignSelf u x) ∈ good → Complete u x) : Complete t v :=
  makes_complete (builder_sound hp hb) hw

/-! ## C47 -/

/-- Outcomes of a call on a finished builder `a`. -/
def Refused (a : Frame) (o : Out) : Prop := o = .panic ∨ o = .noHandle ∨ ∃ e, o = .err e a

theorem refused_call (t : T) (v : Val) (b : Bool) (ph : MaState) (s f : Nat)
    (hph : b = true → ph = .finished) (c : Call) :
    Refused (.mk t v .value b ph s f none) (Frame.call (.mk t v .value b ph s f none) c) := by
  unfold Refused
  cases b with
  | false =>
    cases c <;> simp only [Frame.call, Frame.begun, Calls.beginMap, Calls.beginList, Calls.assignNull,
      Calls.assignString, Calls.assignLink, Calls.assignSelf, Frame.m] <;> (repeat' split) <;> simp_all
  | true =>
    cases hph rfl
    clear hph
    cases c <;> simp only [Frame.call, Frame.begun, Calls.beginMap, Calls.beginList, Calls.assignNull,
      Calls.assignString, Calls.assignLink, Calls.assignSelf, Calls.assembleEntry, Calls.assembleKey,
      Calls.keyAssign, Calls.keyAssignOther, Calls.assembleValue, Calls.finish, Frame.m, Frame.ty,
      ready] <;> (repeat' split) <;> simp_all

/-- A finished builder refuses every further call, on whatever handle. -/
theorem built_refuses {t : T} {cs good : List (Nat × Call)} {a : Frame} {v : Val}
    (hp : play (fresh t) cs = some (a, good)) (hb : a.build = .ok v) (d : Nat) (c : Call) :
    Refused a (a.callAt d c) := by
  have h := play_inv (.idle t) hp
  unfold Frame.build at hb
  split at hb
  · rename_i hm
    cases h with
    | done b ph s f hmk hph =>
      cases d with
      | zero => exact refused_call t _ b ph s f hph c
      | succ d => exact Or.inr (Or.inl rfl)
    | _ => cases hm
  · cases hb

/-- After `Build`, whatever calls a client makes on the builder and its handles,
none succeeds, and `Build` returns the same value again. -/
theorem built_stays {t : T} {cs good more g : List (Nat × Call)} {a a' : Frame} {v : Val}
    (hp : play (fresh t) cs = some (a, good)) (hb : a.build = .ok v)
    (hm : play a more = some (a', g)) : g = [] ∧ a' = a ∧ a'.build = .ok v := by
  suffices h : g = [] ∧ a' = a by exact ⟨h.1, h.2, by rw [h.2]; exact hb⟩
  induction more generalizing g with
  | nil => cases hm; exact ⟨rfl, rfl⟩
  | cons x r ih =>
    obtain ⟨d, c⟩ := x
    simp only [play] at hm
    rcases built_refuses hp hb d c with h | h | ⟨e, h⟩
    · rw [h] at hm; cases hm
    · rw [h] at hm; cases hm
    · rw [h] at hm; exact ih hm

/-- The builder of a struct that has been built, and a field of it that was given. -/
structure BuiltField (t : T) (fs : List FieldT) (a : Frame) (l : List (Option Val)) (i : Nat)
    (fd : FieldT) (old : Val) : Prop where
  shape : t.shape = .struct fs
  made : ∃ cs good, play (fresh t) cs = some (a, good)
  built : a.build = .ok (.struct l)
  field : FieldAt fs i fd
  given : l[i]? = some (some old)

theorem builtField_eq {t : T} {fs : List FieldT} {a : Frame} {l : List (Option Val)} {i : Nat} {fd : FieldT}
    {old : Val} (h : BuiltField t fs a l i fd old) :
    ∃ b ph s f c, a = .mk t (.struct l) .value b ph s f c := by
  obtain ⟨cs, good, hp⟩ := h.made
  have hty := partial_ty (play_inv (.idle t) hp)
  have hb := h.built
  obtain ⟨t', w, m, b, ph, s, f, ch⟩ := a
  have hty : t' = t := hty
  subst hty
  unfold Frame.build at hb
  split at hb
  · rename_i hm
    have hm : m = .value := hm
    have hw : w = .struct l := by injection hb
    subst hm
    subst hw
    exact ⟨_, _, _, _, _, rfl⟩
  · cases hb

/-- A client that kept the handle of a required field of a struct can still
overwrite the field in the built value, if the builder is one of the representation
view. -/
theorem stale_repr_overwrites {t : T} {fs : List FieldT} {a : Frame} {l : List (Option Val)} {i : Nat}
    {fd : FieldT} {old new : Val} (h : BuiltField t fs a l i fd old) (hr : fd.required = true)
    (ph : MaState) (c : Call) (hn : overwritten fd.ty old c = some new) :
    ∃ a', a.stale true i ph c = .ok a' ∧ a'.build = .ok (.struct (l.set i (some new))) := by
  obtain ⟨b, ph', s, f, ch, rfl⟩ := builtField_eq h
  refine ⟨.mk t (.struct (l.set i (some new))) .value b ph' s f ch, ?_, rfl⟩
  simp only [Frame.stale, h.shape]
  rw [show fs[i]? = some fd from h.field]
  have hv : fieldVal (.struct l) i fd.ty = old := by simp [fieldVal, h.given]
  simp only [hv, hr, if_true]
  unfold overwritten at hn
  split at hn
  · split at hn
    · rename_i hu
      cases hn
      simp only [Frame.call, Calls.assignSelf]
      rw [if_neg (by simp [hu])]
      rfl
    · cases hn
  · rename_i hs; cases hn; simp only [Frame.call, Calls.assignString, hs]; rfl
  · rename_i hs; cases hn; simp only [Frame.call, Calls.assignLink, hs]; rfl
  · rename_i hs; cases hn; simp only [Frame.call, Calls.beginList, hs]; rfl
  · rename_i hs; cases hn; simp only [Frame.call, Calls.beginMap, hs]; rfl
  · cases hn

/-- Every other call on a kept handle of a representation builder is refused, and so
is every call on the kept handle of an optional field. -/
theorem stale_repr_refused {t : T} {fs : List FieldT} {a : Frame} {l : List (Option Val)} {i : Nat}
    {fd : FieldT} {old : Val} (h : BuiltField t fs a l i fd old) (ph : MaState) (c : Call)
    (hn : fd.required = false ∨ overwritten fd.ty old c = none) : Refused a (a.stale true i ph c) := by
  obtain ⟨b, ph', s, f, ch, rfl⟩ := builtField_eq h
  unfold Refused
  simp only [Frame.stale, h.shape]
  rw [show fs[i]? = some fd from h.field]
  simp only
  have key : ∀ x, Frame.call (.mk fd.ty (fieldVal (.struct l) i fd.ty)
      (if fd.required then .absent else .value) false ph 0 0 none) c ≠ .ok x := by
    intro x hx
    rcases hn with hn | hn
    · rw [hn] at hx
      rcases refused_call fd.ty (fieldVal (.struct l) i fd.ty) false ph 0 0 (fun h => by cases h) c with h | h | ⟨e, h⟩
      · exact absurd (h.symm.trans hx) (by simp)
      · exact absurd (h.symm.trans hx) (by simp)
      · exact absurd (h.symm.trans hx) (by simp)
    · unfold overwritten at hn
      cases c <;> simp only [Frame.call, Frame.begun, Calls.beginMap, Calls.beginList, Calls.assignNull,
        Calls.assignString, Calls.assignLink, Calls.assignSelf, Frame.m] at hx <;> first | (cases hx; done) | (split at hx <;> simp_all)
  cases hc : Frame.call (.mk fd.ty (fieldVal (.struct l) i fd.ty)
      (if fd.required then .absent else .value) false ph 0 0 none) c with
  | ok x => exact absurd hc (key x)
  | err e x => exact Or.inr (Or.inr ⟨e, rfl⟩)
  | panic => exact Or.inl rfl
  | noHandle => exact Or.inr (Or.inl rfl)

/-- A kept handle of a builder of the typed view does not change the built value. -/
theorem stale_typed_harmless {t : T} {fs : List FieldT} {a a' : Frame} {l : List (Option Val)} {i : Nat}
    {fd : FieldT} {old : Val} (h : BuiltField t fs a l i fd old) (ph : MaState) (c : Call)
    (hs : a.stale false i ph c = .ok a') : a' = a := by
  obtain ⟨b, ph', s, f, ch, rfl⟩ := builtField_eq h
  simp only [Frame.stale, h.shape] at hs
  rw [show fs[i]? = some fd from h.field] at hs
  simp only [Bool.false_eq_true, if_false] at hs
  split at hs
  · split at hs
    · cases hs; rfl
    · split at hs
      · cases hs
      · cases hs; rfl
    · cases hs
  · cases hs
  · cases hs
  · cases hs

/-- The assembler with another mark. -/
abbrev remark {W : Type} (m : Maybe) (a : Asm W) : Asm W := { a with m := m }

theorem ready_remark {W : Type} (S : Struct W) (m : Maybe) (a : Asm W) :
    S.ready (remark m a) = (S.ready a).bind fun a => .ok (remark m a) := by
  obtain ⟨w, m0, st, s, f, cm⟩ := a
  cases st <;> try rfl
  simp only [Struct.ready, Struct.tidy, remark]
  by_cases h1 : f < S.fields.length
  · rw [if_pos h1, if_pos h1]
    by_cases h2 : cm = .value
    · rw [if_pos h2, if_pos h2]; rfl
    · rw [if_neg h2, if_neg h2]; rfl
  · rw [if_neg h1, if_neg h1]; rfl

theorem assembleKey_remark {W : Type} (S : Struct W) (m : Maybe) (a : Asm W) :
    S.assembleKey (remark m a) = (S.assembleKey a).bind fun a => .ok (remark m a) := by
  unfold Struct.assembleKey
  rw [ready_remark]
  cases S.ready a <;> rfl

theorem keyAssign_remark {W : Type} (S : Struct W) (m : Maybe) (a : Asm W) (n : Node) :
    S.keyAssignNode (remark m a) n = (S.keyAssignNode a n).bind fun a => .ok (remark m a) := by
  unfold Struct.keyAssignNode
  cases n.asString with
  | err e => rfl
  | panic => rfl
  | ok k =>
    show S.keyAssignString (remark m a) k = (S.keyAssignString a k).bind _
    unfold Struct.keyAssignString
    simp only [remark]
    by_cases h1 : a.state ≠ .midKey
    · rw [if_pos h1, if_pos h1]; rfl
    · rw [if_neg h1, if_neg h1]
      cases S.find k with
      | none => rfl
      | some i =>
        by_cases h2 : a.s &&& (1 <<< i) ≠ 0
        · simp only [if_pos h2]; rfl
        · simp only [if_neg h2]; rfl

theorem assembleValue_remark {W : Type} (S : Struct W) (m : Maybe) (a : Asm W) :
    S.assembleValue (remark m a) = (S.assembleValue a).bind fun a => .ok (remark m a) := by
  unfold Struct.assembleValue
  simp only [remark]
  by_cases h1 : a.state ≠ .expectValue
  · rw [if_pos h1, if_pos h1]; rfl
  · rw [if_neg h1, if_neg h1]
    cases a.w with
    | none => rfl
    | some w =>
      by_cases h2 : a.f < S.fields.length
      · simp only [if_pos h2]; rfl
      · simp only [if_neg h2]; rfl

theorem childAssign_remark {W : Type} (S : Struct W) (m : Maybe) (a : Asm W) (n : Node) :
    S.childAssign (remark m a) n = (S.childAssign a n).bind fun a => .ok (remark m a) := by
  unfold Struct.childAssign
  simp only [remark]
  by_cases h1 : a.cm ≠ .absent
  · rw [if_pos h1, if_pos h1]; rfl
  · rw [if_neg h1, if_neg h1]
    cases a.w with
    | none => rfl
    | some w =>
      cases S.fields[a.f]? with
      | none => rfl
      | some f =>
        simp only
        cases f.assign w n <;> rfl

theorem entries_remark {W : Type} (S : Struct W) (es : List (Bytes × Node)) (m : Maybe) (a : Asm W) :
    S.assignEntries es (remark m a) = S.assignEntries es a := by
  induction es generalizing a with
  | nil =>
    unfold Struct.assignEntries Struct.finish
    rw [ready_remark]
    cases S.ready a with
    | ok a => rfl
    | err e => rfl
    | panic => rfl
  | cons x r ih =>
    obtain ⟨k, v⟩ := x
    unfold Struct.assignEntries
    rw [assembleKey_remark]
    cases S.assembleKey a with
    | err e => rfl
    | panic => rfl
    | ok a =>
      show (S.keyAssignNode (remark m a) _ >>= _) = (S.keyAssignNode a _ >>= _)
      rw [keyAssign_remark]
      cases S.keyAssignNode a (.str k) with
      | err e => rfl
      | panic => rfl
      | ok a =>
        show (S.assembleValue (remark m a) >>= _) = (S.assembleValue a >>= _)
        rw [assembleValue_remark]
        cases S.assembleValue a with
        | err e => rfl
        | panic => rfl
        | ok a =>
          show (S.childAssign (remark m a) v >>= _) = (S.childAssign a v >>= _)
          rw [childAssign_remark]
          cases S.childAssign a v with
          | err e => rfl
          | panic => rfl
          | ok a => exact ih a

/-- `AssignNode` of a map does not look whether a value is already there. After a
node of the builder's own type, it goes to work on the value assigned, just as a
builder that starts from that value would, and reports an error only if that would;
another node of the builder's own type panics. -/
theorem second_assign {W : Type} (S : Struct W) (zero v : W) {n n' : Node} (hn : n.isNull = false)
    (hv : S.self n = some v) (hn' : n'.isNull = false) (hs' : S.self n' = none) :
    ∃ a, S.assignNode (Asm.fresh (some zero)) n = .ok a ∧ a.build = .ok v ∧
      S.assignNode a n = .panic ∧ S.assignNode a n' = S.assignNode (Asm.fresh (some v)) n' := by
  refine ⟨{ Asm.fresh (some v) with m := .value }, ?_, rfl, ?_, ?_⟩
  · simp only [Struct.assignNode, hn, hv]; rfl
  · simp only [Struct.assignNode, hn, hv]; rfl
  · simp only [Struct.assignNode, hn', hs']
    have e : ∀ es, S.assignEntries es { Asm.fresh (some v) with m := .value } =
        S.assignEntries es (Asm.fresh (some v)) := fun es => entries_remark S es .value _
    simp only [e]
    rfl

/-! ## Concrete cases -/

/-- Calls for a tree entry: a wrong key and a repeated one are refused, a second
way to name a key is used, and the entry comes out. -/
def entryCalls : List (Nat × Call) :=
  [(0, .beginMap), (0, .assembleEntry b!"nope"), (0, .assembleEntry b!"mode"), (1, .beginMap),
   (1, .assignString b!"40000"), (0, .finish), (0, .assembleEntry b!"mode"), (0, .assembleKey),
   (0, .keyAssign b!"mode"), (0, .keyAssign b!"hash"), (0, .assembleValue), (1, .assignNull),
   (1, .assignLink .nil), (0, .finish)]

def entryGood : List (Nat × Call) :=
  [(0, .beginMap), (0, .assembleEntry b!"mode"), (1, .assignString b!"40000"), (0, .assembleKey),
   (0, .keyAssign b!"hash"), (0, .assembleValue), (1, .assignLink .nil), (0, .finish)]

def entryVal : Val := .struct [some (.text b!"40000"), some (.link .nil)]

theorem entry_plays : ∃ a, play (fresh .treeEntry) entryCalls = some (a, entryGood) ∧
    a.build = .ok entryVal := ⟨_, rfl, rfl⟩

example : Makes .treeEntry entryVal entryGood := by
  obtain ⟨a, hp, hb⟩ := entry_plays
  exact builder_sound hp hb

example : Complete .treeEntry entryVal := by
  obtain ⟨a, hp, hb⟩ := entry_plays
  refine built_complete hp hb fun d u x hx => ?_
  simp [entryGood] at hx

/-- A list inside a struct inside the calls of a commit, and what is missing. -/
example : ∃ a, play (fresh .commit) [(0, .beginMap), (0, .assembleEntry b!"parents"), (1, .beginList 1),
      (1, .assembleValue), (2, .assignLink .nil), (1, .assembleValue), (2, .assignLink .nil), (1, .finish),
      (0, .assembleEntry b!"author"), (1, .assignSelf .person (.struct [none, none, none, none])),
      (0, .finish)] = some (a, [(0, .beginMap), (0, .assembleEntry b!"parents"), (1, .beginList 1),
      (1, .assembleValue), (2, .assignLink .nil), (1, .assembleValue), (2, .assignLink .nil), (1, .finish),
      (0, .assembleEntry b!"author"), (1, .assignSelf .person (.struct [none, none, none, none]))]) ∧
    a.build = .panic := ⟨_, rfl, rfl⟩

example : ∃ a a', play (fresh .treeEntry) entryCalls = some (a, entryGood) ∧
    a.stale true 0 .initial (.assignString b!"evil") = .ok a' ∧
    a'.build = .ok (.struct [some (.text b!"evil"), some (.link .nil)]) := by
  obtain ⟨a, hp, hb⟩ := entry_plays
  obtain ⟨a', h, hb'⟩ := stale_repr_overwrites (t := .treeEntry) (i := 0)
    ⟨rfl, ⟨_, _, hp⟩, hb, rfl, rfl⟩ rfl .initial (.assignString b!"evil") rfl
  exact ⟨a, a', hp, h, hb'⟩

/-- The first person is gone without an error. -/
example : (do
    let a ← personStruct.assignNode (Asm.fresh (some .zero)) (.own (.person ⟨b!"A", b!"a@x", b!"1", b!"+0000"⟩))
    let a ← personStruct.assignNode a (.map [(b!"name", .str b!"B"), (b!"email", .str b!"b@x"),
      (b!"date", .str b!"2"), (b!"timezone", .str b!"+0100")])
    a.build) = .ok ⟨b!"B", b!"b@x", b!"2", b!"+0100"⟩ := by decide +kernel

example : ∃ a, personStruct.assignNode (Asm.fresh (some .zero))
      (.own (.person ⟨b!"A", b!"a@x", b!"1", b!"+0000"⟩)) = .ok a ∧
    a.build = .ok ⟨b!"A", b!"a@x", b!"1", b!"+0000"⟩ ∧
    personStruct.assignNode a (.own (.person ⟨b!"A", b!"a@x", b!"1", b!"+0000"⟩)) = .panic := by
  obtain ⟨a, h1, h2, h3, _⟩ := second_assign personStruct .zero ⟨b!"A", b!"a@x", b!"1", b!"+0000"⟩
    (n := .own (.person ⟨b!"A", b!"a@x", b!"1", b!"+0000"⟩)) (n' := .map []) rfl rfl rfl rfl
  exact ⟨a, h1, h2, h3⟩

end Verif.Props
