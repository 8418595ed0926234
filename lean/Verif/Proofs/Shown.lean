import Verif.Proofs.FeedTypes
import Verif.Proofs.Taken
import Verif.Spec.Shown

/-!
# The assemblers of `Verif.Model.Assemble` and what a node gives
-/

namespace Verif

open Spec Calls
open Verif.Handles (Nd Nds Ents)

/-- `g` makes of every node what the specification says. -/
def Gives {α : Type} (bare : Bool) (t : T) (g : Node → Res α) (val : α → Val) : Prop :=
  ∀ n d, Offers n d → taken bare t d = (g n >>= fun a => .ok (val a))

theorem asString_kind {n : Node} (h : n.kind ≠ .string) : n.asString = .err .wrongKind := by
  cases n with
  | str b => exact absurd rfl h
  | own v => cases v <;> first | rfl | exact absurd rfl h
  | repr v => cases v <;> first | rfl | exact absurd rfl h
  | _ => rfl

theorem asLink_kind {n : Node} (h : n.kind ≠ .link) : n.asLink = .err .wrongKind := by
  cases n with
  | link b => exact absurd rfl h
  | own v => cases v <;> first | rfl | exact absurd rfl h
  | repr v => cases v <;> first | rfl | exact absurd rfl h
  | _ => rfl

theorem kind_not_null {n : Node} (h : n.kind ≠ .null) : n.isNull = false := by
  cases n <;> first | rfl | exact absurd rfl h

theorem plain_text {n : Node} {d : Nd} (h : Plain n d) (b : Bool) {t : T} (ht : t.shape = .text) :
    taken b t d = ((if n.isNull then .err .wrongKind else n.asString) >>= fun x => .ok (.text x)) := by
  cases h with
  | null => rfl
  | absent => rfl
  | text hk hx => rw [kind_not_null (by rw [hk]; simp), hx]; simp only [taken, ht]; rfl
  | link hk _ => rw [kind_not_null (by rw [hk]; simp), asString_kind (by rw [hk]; simp)]; simp only [taken, ht]; rfl
  | other hk =>
    rw [kind_not_null (by rcases hk with h | h | h | h <;> rw [h] <;> simp),
      asString_kind (by rcases hk with h | h | h | h <;> rw [h] <;> simp)]
    rfl
  | list hk _ _ => rw [kind_not_null (by rw [hk]; simp), asString_kind (by rw [hk]; simp)]; simp only [taken, ht]; rfl
  | map hk _ _ => rw [kind_not_null (by rw [hk]; simp), asString_kind (by rw [hk]; simp)]; simp only [taken, ht]; rfl

theorem plain_link {n : Node} {d : Nd} (h : Plain n d) (b : Bool) {t : T} (ht : t.shape = .link) :
    taken b t d = ((if n.isNull then .err .wrongKind else n.asLink) >>= fun x => .ok (.link x)) := by
  cases h with
  | null => rfl
  | absent => rfl
  | link hk hx => rw [kind_not_null (by rw [hk]; simp), hx]; simp only [taken, ht]; rfl
  | text hk _ => rw [kind_not_null (by rw [hk]; simp), asLink_kind (by rw [hk]; simp)]; simp only [taken, ht]; rfl
  | other hk =>
    rw [kind_not_null (by rcases hk with h | h | h | h <;> rw [h] <;> simp),
      asLink_kind (by rcases hk with h | h | h | h <;> rw [h] <;> simp)]
    rfl
  | list hk _ _ => rw [kind_not_null (by rw [hk]; simp), asLink_kind (by rw [hk]; simp)]; simp only [taken, ht]; rfl
  | map hk _ _ => rw [kind_not_null (by rw [hk]; simp), asLink_kind (by rw [hk]; simp)]; simp only [taken, ht]; rfl

/-- A node of the type itself is taken as it is, any other for what it shows. -/
theorem gives_of {α : Type} {bare : Bool} {t : T} {g : Node → Res α} {val : α → Val}
    (hown : ∀ v, v.proto = protoOf t → ∃ a, g (.own v) = .ok a ∧ val a = valOf v)
    (hplain : ∀ n d, Plain n d → (∀ v, n = .own v → v.proto ≠ protoOf t) →
      taken bare t d = (g n >>= fun a => .ok (val a))) : Gives bare t g val := by
  intro n d h
  cases h with
  | @own v u d hp hd =>
    simp only [taken]
    by_cases hu : u = t
    · subst hu
      obtain ⟨a, h1, h2⟩ := hown v hp
      rw [if_pos rfl, h1, Res.bind_ok, h2]
    · rw [if_neg hu]
      refine hplain _ d hd ?_
      intro w hw he
      cases hw
      rw [hp] at he
      apply hu
      cases u <;> cases t <;> first | rfl | cases he
  | plain hn hd => exact hplain n d hd fun v hv => hn v t hv

theorem gives_string (b : Bool) : Gives b .string assignString .text :=
  gives_of (by intro v hv; cases v <;> cases hv; exact ⟨_, rfl, rfl⟩) fun n d hd hn => by
    rw [plain_text hd b rfl]
    cases n with
    | own v => cases v <;> first | rfl | exact absurd rfl (hn _ rfl)
    | _ => rfl

theorem gives_gpgSig (b : Bool) : Gives b .gpgSig assignGpgSig .text :=
  gives_of (by intro v hv; cases v <;> cases hv; exact ⟨_, rfl, rfl⟩) fun n d hd hn => by
    rw [plain_text hd b rfl]
    cases n with
    | own v => cases v <;> first | rfl | exact absurd rfl (hn _ rfl)
    | _ => rfl

theorem gives_lnk (b : Bool) : Gives b .link assignLink .link :=
  gives_of (by intro v hv; cases v <;> cases hv; exact ⟨_, rfl, rfl⟩) fun n d hd hn => by
    rw [plain_link hd b rfl]
    cases n with
    | own v => cases v <;> first | rfl | exact absurd rfl (hn _ rfl)
    | _ => rfl

theorem gives_treeLink (b : Bool) : Gives b .treeLink assignTreeLink .link :=
  gives_of (by intro v hv; cases v <;> cases hv; exact ⟨_, rfl, rfl⟩) fun n d hd hn => by
    rw [plain_link hd b rfl]
    cases n with
    | own v => cases v <;> first | rfl | exact absurd rfl (hn _ rfl)
    | _ => rfl

theorem gives_commitLink (b : Bool) : Gives b .commitLink assignCommitLink .link :=
  gives_of (by intro v hv; cases v <;> cases hv; exact ⟨_, rfl, rfl⟩) fun n d hd hn => by
    rw [plain_link hd b rfl]
    cases n with
    | own v => cases v <;> first | rfl | exact absurd rfl (hn _ rfl)
    | _ => rfl

/-! ## Lists -/

theorem elems_shown {α : Type} {e : T} {g : Node → Res α} {val : α → Val} (hg : Gives false e g val) :
    (ns : List Node) → (ds : Nds) → OffersAll ns ds → ∀ acc : List α,
      (takenAll e ds >>= fun vs => .ok (acc.map val ++ vs)) = (assignElems g ns acc >>= fun l => .ok (l.map val))
  | [], _, .nil, acc => by simp [takenAll, assignElems]
  | n :: r, _, .cons (d := d) (ds := ds) h1 h2, acc => by
    simp only [takenAll, assignElems, hg n d h1]
    cases g n with
    | panic => rfl
    | err e => rfl
    | ok a =>
      simp only [Res.bind_ok]
      rw [← elems_shown hg r ds h2 (acc ++ [a])]
      cases takenAll e ds with
      | ok vs => simp
      | err e => rfl
      | panic => rfl

theorem gives_list {α : Type} {t e : T} (ht : t.shape = .list e) {g : Node → Res α} {val : α → Val}
    (hg : Gives false e g val) (self : Node → Option (List α))
    (hown : ∀ v, v.proto = protoOf t → ∃ l, self (.own v) = some l ∧ Val.list (l.map val) = valOf v)
    (hs : ∀ n, (∀ v, n = .own v → v.proto ≠ protoOf t) → self n = none) (b : Bool) :
    Gives b t (assignList self g []) (fun l => .list (l.map val)) := by
  refine gives_of ?_ ?_
  · intro v hv
    obtain ⟨l, h1, h2⟩ := hown v hv
    exact ⟨l, by simp only [assignList, Node.isNull, Bool.false_eq_true, if_false, h1], h2⟩
  · intro n d hd hn
    have hsn := hs n hn
    unfold assignList
    cases hd with
    | null => rfl
    | absent => simp [taken, hsn, Node.isNull, Node.kind]
    | text hk _ => simp [taken, ht, kind_not_null (show n.kind ≠ .null by rw [hk]; simp), hk, hsn]
    | link hk _ => simp [taken, ht, kind_not_null (show n.kind ≠ .null by rw [hk]; simp), hk, hsn]
    | other hk =>
      have h1 : n.kind ≠ .list := by rcases hk with h | h | h | h <;> rw [h] <;> simp
      simp [taken, kind_not_null (show n.kind ≠ .null by rcases hk with h | h | h | h <;> rw [h] <;> simp), h1, hsn]
    | map hk _ _ => simp [taken, ht, kind_not_null (show n.kind ≠ .null by rw [hk]; simp), hk, hsn]
    | list hk hi hx =>
      rename_i ns ds
      have := elems_shown hg ns ds hx []
      simp only [List.map_nil, List.nil_append] at this
      simp only [taken, ht, kind_not_null (show n.kind ≠ .null by rw [hk]; simp), hk, hsn, hi, Bool.false_eq_true,
        if_false, ne_eq, not_true_eq_false]
      revert this
      cases takenAll e ds <;> cases assignElems g ns [] <;> intro this <;> cases this <;> rfl

theorem gives_linkList (b : Bool) : Gives b .linkList (assignLinkList []) (fun l => .list (l.map .link)) :=
  gives_list rfl (gives_commitLink false) _ (by intro v hv; cases v <;> cases hv; exact ⟨_, rfl, rfl⟩)
    (fun n h => by
      cases n with
      | own v => cases v <;> first | rfl | exact absurd rfl (h _ rfl)
      | _ => rfl) b

theorem gives_stringList (b : Bool) : Gives b .stringList (assignStringList []) (fun l => .list (l.map .text)) :=
  gives_list rfl (gives_string false) _ (by intro v hv; cases v <;> cases hv; exact ⟨_, rfl, rfl⟩)
    (fun n h => by
      cases n with
      | own v => cases v <;> first | rfl | exact absurd rfl (h _ rfl)
      | _ => rfl) b

/-! ## Structs -/

/-- What assigning to field `i` of `w` is to give. -/
def FieldGives {W : Type} (slots : W → List (Option Val)) (w : W) (i : Nat) (q : Res W) : Res Val → Prop
  | .ok v => ∃ w', q = .ok w' ∧ slots w' = (slots w).set i (some v)
  | .err e => q = .err e
  | .panic => q = .panic

/-- The fields and the own nodes of a struct. -/
structure FieldsOf {W : Type} (S : Struct W) (t : T) (fs : List FieldT) (slots : W → List (Option Val)) (zero : W) :
    Prop where
  field : ∀ (i : Nat) (f : Field W) (fd : FieldT), S.fields[i]? = some f → fs[i]? = some fd → ∀ w n d,
    (slots w)[i]? = (slots zero)[i]? → Offers n d →
    FieldGives slots w i (f.assign w n) (taken (!fd.required && Handles.FieldT.byRef fd) fd.ty d)
  own : ∀ v, v.proto = protoOf t → ∃ w, S.self (.own v) = some w ∧ Val.struct (slots w) = valOf v
  foreign : ∀ n, (∀ v, n = .own v → v.proto ≠ protoOf t) → S.self n = none

theorem field_gives {W α : Type} {b : Bool} {ty : T} {g : Node → Res α} {val : α → Val} (ha : Gives b ty g val)
    {slots : W → List (Option Val)} {w : W} {i : Nat} {n : Node} {d : Nd} (hn : Offers n d)
    {r : Res W} (set : α → W) (hr : r = g n >>= fun a => .ok (set a))
    (hs : ∀ a, slots (set a) = (slots w).set i (some (val a))) :
    FieldGives slots w i r (taken b ty d) := by
  rw [ha n d hn]
  subst hr
  cases g n with
  | ok a => exact ⟨_, rfl, hs a⟩
  | err e => rfl
  | panic => rfl

section

variable {W : Type} {p : Prop} {S : Struct W} {t : T} {fs : List FieldT} {slots : W → List (Option Val)} {zero : W}

/-- The outcome of the loop over the entries. -/
def EntsGive (slots : W → List (Option Val)) (q : Res (Asm W)) : Res (List (Option Val)) → Prop
  | .ok l => ∃ a w, q = .ok a ∧ a.w = some w ∧ a.m = .value ∧ slots w = l
  | .err e => q = .err e
  | .panic => q = .panic

theorem ents_shown (H : StructOf p S t fs slots zero) (G : FieldsOf S t fs slots zero) :
    (es : List (Bytes × Node)) → (ds : Ents) → OffersEnts es ds → ∀ {a : Asm W} {w : W} {l : List (Option Val)}
      {s f' : Nat} {m : Maybe},
      S.ready a = .ok { w := some w, m := m, state := .initial, s := s, f := f', cm := .absent } →
      Given fs slots zero w l s → EntsGive slots (S.assignEntries es a) (takenFields false fs ds l)
  | [], _, .nil, a, w, l, s, f', m, hr, hg => by
    simp only [Struct.assignEntries, Struct.finish, hr, Res.bind_ok, H.sufficient, takenFields]
    have hiff := (sufficient_iff (fs := fs) hg.bits).trans (Handles.noneMissing_iff hg.len).symm
    by_cases hm : noneMissing fs l = true
    · rw [if_pos hm, if_neg (by rw [ne_eq, Decidable.not_not]; exact hiff.2 hm)]
      exact ⟨_, w, rfl, rfl, rfl, (given_done H hg ((Handles.noneMissing_iff hg.len).1 hm)).symm⟩
    · rw [if_neg hm, if_pos fun h => hm (hiff.1 h)]
      rfl
  | (k, n) :: r, _, .cons (d := d) (ds := ds) h1 h2, a, w, l, s, f', m, hr, hg => by
    simp only [Struct.assignEntries, Struct.assembleKey, hr, Res.bind_ok, Struct.keyAssignNode, Node.asString,
        Struct.keyAssignString, ne_eq, not_true_eq_false, if_false, H.find, takenFields]
    unfold Calls.find
    cases hf : fs.findIdx? (fun f => decide (f.name = k)) with
    | none => rfl
    | some i =>
      have hlt : i < fs.length := (List.findIdx?_eq_some_iff_getElem.1 hf).1
      have hll : i < l.length := by rw [hg.len]; exact hlt
      have hfi : fs[i]? = some fs[i] := List.getElem?_eq_getElem hlt
      have hli : l[i]? = some l[i] := List.getElem?_eq_getElem hll
      have hfS : S.fields[i]? = some (S.fields[i]'(by rw [H.length]; exact hlt)) := List.getElem?_eq_getElem _
      cases hv : l[i] with
      | some v =>
        rw [hv] at hli
        have hbit : s &&& (1 <<< i) ≠ 0 := (and_bit_ne_zero s i).2 ((hg.bits i).2 ⟨v, hli⟩)
        simp only [hli, if_pos hbit, Res.bind_err]
        rfl
      | none =>
        rw [hv] at hli
        have hbit : ¬ s &&& (1 <<< i) ≠ 0 := by
          intro h
          obtain ⟨v, hv'⟩ := (hg.bits i).1 ((and_bit_ne_zero s i).1 h)
          rw [hli] at hv'; cases hv'
        simp only [hli, hfi, if_neg hbit, Res.bind_ok, Struct.assembleValue, ne_eq, not_true_eq_false, if_false,
          H.length, if_pos hlt, Struct.childAssign, hfS, Bool.false_eq_true]
        have hfield := G.field i _ _ hfS hfi w n d (hg.out i hli) h1
        revert hfield
        cases taken (!fs[i].required && Handles.FieldT.byRef fs[i]) fs[i].ty d with
        | panic => intro h; rw [show _ = Res.panic from h]; rfl
        | err e => intro h; rw [show _ = Res.err e from h]; rfl
        | ok v =>
          rintro ⟨w', hw1, hw2⟩
          simp only [hw1, Res.bind_ok]
          refine ents_shown H G r ds h2 (w := w') (s := s + (1 <<< i)) (f' := i) (m := m) ?_ ?_
          · simp [Struct.ready, Struct.tidy, H.length, hlt]
          · refine ⟨by simp [hg.len], bits_add hg.bits hli _, ?_, ?_⟩
            · intro j v hj
              rw [hw2]
              by_cases hij : i = j
              · subst hij
                rw [List.getElem?_set_self hll] at hj
                rw [List.getElem?_set_self (by rw [H.len]; exact hlt)]
                exact hj
              · rw [List.getElem?_set_ne hij] at hj ⊢
                exact hg.there j v hj
            · intro j hj
              rw [hw2]
              by_cases hij : i = j
              · subst hij
                rw [List.getElem?_set_self hll] at hj
                cases hj
              · rw [List.getElem?_set_ne hij] at hj ⊢
                exact hg.out j hj

/-- The loop over the entries, with nothing behind the assembler. -/
theorem bare_shown (H : StructOf p S t fs slots zero) (es : List (Bytes × Node)) (ds : Ents) (h : OffersEnts es ds) :
    EntsGive slots (S.assignEntries es (Asm.fresh none)) (takenFields true fs ds (fs.map fun _ => none)) := by
  have hb : Bits 0 (fs.map fun _ => none) := bits_zero fs
  cases h with
  | nil =>
    have hq := Handles.something_required H.shape
    have hsuf : ¬ (0 &&& Calls.sufficient fs = Calls.sufficient fs) := by
      rw [sufficient_iff hb, ← Handles.noneMissing_iff (by simp), hq]; simp
    simp only [Struct.assignEntries, Struct.finish, Struct.ready, Asm.fresh, Res.bind_ok, H.sufficient, takenFields, hq,
      ne_eq, hsuf, not_false_eq_true, if_true]
    rfl
  | @cons k n d es ds h1 h2 =>
    simp only [Struct.assignEntries, Struct.assembleKey, Struct.ready, Asm.fresh, Res.bind_ok, Struct.keyAssignNode,
      Node.asString, Struct.keyAssignString, ne_eq, not_true_eq_false, if_false, H.find, takenFields]
    unfold Calls.find
    cases hf : fs.findIdx? (fun f => decide (f.name = k)) with
    | none => rfl
    | some i =>
      have hlt : i < fs.length := (List.findIdx?_eq_some_iff_getElem.1 hf).1
      simp only [List.getElem?_map, List.getElem?_eq_getElem hlt, Option.map_some, Nat.zero_and, not_true_eq_false,
        if_false, Res.bind_ok, Struct.assembleValue, ne_eq, if_true]
      rfl

theorem gives_struct (H : StructOf p S t fs slots zero) (G : FieldsOf S t fs slots zero) (bare : Bool) :
    Gives bare t (S.child (if bare then none else some zero)) (fun w => .struct (slots w)) := by
  refine gives_of ?_ ?_
  · intro v hv
    obtain ⟨w, h1, h2⟩ := G.own v hv
    exact ⟨w, by simp [Struct.child, Struct.assignNode, Node.isNull, h1, Asm.fresh, Asm.build], h2⟩
  · intro n d hd hn
    have hsn := G.foreign n hn
    have ht := H.shape
    unfold Struct.child Struct.assignNode
    cases hd with
    | null => rfl
    | absent => simp [taken, hsn, Node.isNull, Node.kind]
    | text hk _ => simp [taken, ht, kind_not_null (show n.kind ≠ .null by rw [hk]; simp), hk, hsn]
    | link hk _ => simp [taken, ht, kind_not_null (show n.kind ≠ .null by rw [hk]; simp), hk, hsn]
    | other hk =>
      have h1 : n.kind ≠ .map := by rcases hk with h | h | h | h <;> rw [h] <;> simp
      simp [taken, kind_not_null (show n.kind ≠ .null by rcases hk with h | h | h | h <;> rw [h] <;> simp), h1, hsn]
    | list hk _ _ => simp [taken, ht, kind_not_null (show n.kind ≠ .null by rw [hk]; simp), hk, hsn]
    | map hk hi hx =>
      rename_i es ds
      simp only [taken, ht, kind_not_null (show n.kind ≠ .null by rw [hk]; simp), hk, hsn, hi, Bool.false_eq_true,
        if_false, ne_eq, not_true_eq_false]
      have key : EntsGive slots (S.assignEntries es (Asm.fresh (if bare then none else some zero)))
          (takenFields bare fs ds (fs.map fun _ => none)) := by
        cases bare with
        | true => exact bare_shown H es ds hx
        | false =>
          refine ents_shown H G es ds hx (w := zero) (s := 0) (f' := 0) (m := .absent) rfl ⟨by simp, bits_zero fs, ?_, ?_⟩
          · intro i v h
            rw [List.getElem?_map] at h
            cases hx : fs[i]? <;> rw [hx] at h <;> simp at h
          · intros; rfl
      revert key
      cases takenFields bare fs ds (fs.map fun _ => none) with
      | panic => intro h; rw [show _ = Res.panic from h]; rfl
      | err e => intro h; rw [show _ = Res.err e from h]; rfl
      | ok l =>
        rintro ⟨a, w, h1, h2, h3, h4⟩
        simp only [h1, Res.bind_ok, Asm.build, h2, h3, h4]

end

/-! ## The four struct types -/

theorem fieldsOf_person {fs : List FieldT} (hfs : T.person.shape = .struct fs) :
    FieldsOf personStruct .person fs personSlots .zero := by
  cases hfs
  refine ⟨?_, ?_, ?_⟩
  · intro i f fd hf hfd w n cs hz hn
    match i, hf, hfd with
    | 0, hf, hfd => cases hf; cases hfd; exact field_gives (gives_string _) hn _ rfl fun _ => rfl
    | 1, hf, hfd => cases hf; cases hfd; exact field_gives (gives_string _) hn _ rfl fun _ => rfl
    | 2, hf, hfd => cases hf; cases hfd; exact field_gives (gives_string _) hn _ rfl fun _ => rfl
    | 3, hf, hfd => cases hf; cases hfd; exact field_gives (gives_string _) hn _ rfl fun _ => rfl
    | i + 4, hf, hfd => cases hf
  · intro v hv; cases v <;> cases hv; exact ⟨_, rfl, rfl⟩
  · intro n h
    cases n with
    | own v => cases v <;> first | rfl | exact absurd rfl (h _ rfl)
    | _ => rfl

theorem gives_person (b : Bool) : Gives b .person (personStruct.child (if b then none else some .zero)) personVal :=
  have ⟨_, h⟩ := structOf_person True
  gives_struct h (fieldsOf_person h.shape) b

theorem fieldsOf_treeEntry {fs : List FieldT} (hfs : T.treeEntry.shape = .struct fs) :
    FieldsOf treeEntryStruct .treeEntry fs treeEntrySlots ⟨[], .nil⟩ := by
  cases hfs
  refine ⟨?_, ?_, ?_⟩
  · intro i f fd hf hfd w n cs hz hn
    match i, hf, hfd with
    | 0, hf, hfd => cases hf; cases hfd; exact field_gives (gives_string _) hn _ rfl fun _ => rfl
    | 1, hf, hfd => cases hf; cases hfd; exact field_gives (gives_lnk _) hn _ rfl fun _ => rfl
    | i + 2, hf, hfd => cases hf
  · intro v hv; cases v <;> cases hv; exact ⟨_, rfl, rfl⟩
  · intro n h
    cases n with
    | own v => cases v <;> first | rfl | exact absurd rfl (h _ rfl)
    | _ => rfl

theorem gives_treeEntry : Gives false .treeEntry (treeEntryStruct.child (some ⟨[], .nil⟩)) treeEntryVal :=
  have ⟨_, h⟩ := structOf_treeEntry True
  gives_struct h (fieldsOf_treeEntry h.shape) false

theorem fieldsOf_tag {fs : List FieldT} (hfs : T.tag.shape = .struct fs) : FieldsOf tagStruct .tag fs tagSlots .zero := by
  cases hfs
  refine ⟨?_, ?_, ?_⟩
  · intro i f fd hf hfd w n cs hz hn
    match i, hf, hfd with
    | 0, hf, hfd => cases hf; cases hfd; exact field_gives (gives_lnk _) hn _ rfl fun _ => rfl
    | 1, hf, hfd => cases hf; cases hfd; exact field_gives (gives_string _) hn _ rfl fun _ => rfl
    | 2, hf, hfd => cases hf; cases hfd; exact field_gives (gives_string _) hn _ rfl fun _ => rfl
    | 3, hf, hfd =>
      cases hf; cases hfd
      have hz' : w.tagger = .zero := personVal_inj (by simpa [tagSlots, Tag.zero] using hz)
      exact field_gives (gives_person false) hn (fun q => { w with tagger := q }) (by simp only [hz']; rfl) fun _ => rfl
    | 4, hf, hfd => cases hf; cases hfd; exact field_gives (gives_string _) hn _ rfl fun _ => rfl
    | i + 5, hf, hfd => cases hf
  · intro v hv; cases v <;> cases hv; exact ⟨_, rfl, rfl⟩
  · intro n h
    cases n with
    | own v => cases v <;> first | rfl | exact absurd rfl (h _ rfl)
    | _ => rfl

theorem gives_tag : Gives false .tag (tagStruct.child (some .zero)) tagVal :=
  have ⟨_, h⟩ := structOf_tag True
  gives_struct h (fieldsOf_tag h.shape) false

theorem gives_tagList (b : Bool) : Gives b .tagList (assignTagList []) (fun l => .list (l.map tagVal)) :=
  gives_list rfl gives_tag _ (by intro v hv; cases v <;> cases hv; exact ⟨_, rfl, rfl⟩)
    (fun n h => by
      cases n with
      | own v => cases v <;> first | rfl | exact absurd rfl (h _ rfl)
      | _ => rfl) b

theorem fieldsOf_commit {fs : List FieldT} (hfs : T.commit.shape = .struct fs) :
    FieldsOf commitStruct .commit fs commitSlots .zero := by
  cases hfs
  refine ⟨?_, ?_, ?_⟩
  · intro i f fd hf hfd w n cs hz hn
    match i, hf, hfd with
    | 0, hf, hfd => cases hf; cases hfd; exact field_gives (gives_treeLink _) hn _ rfl fun _ => rfl
    | 1, hf, hfd =>
      cases hf; cases hfd
      have hz' : w.parents = [] := by simpa [commitSlots, Commit.zero] using hz
      exact field_gives (gives_linkList _) hn (fun q => { w with parents := q }) (by simp only [hz']) fun _ => rfl
    | 2, hf, hfd => cases hf; cases hfd; exact field_gives (gives_string _) hn _ rfl fun _ => rfl
    | 3, hf, hfd =>
      cases hf; cases hfd
      have hz' : w.author = none := by simpa [commitSlots, Commit.zero] using hz
      exact field_gives (gives_person true) hn (fun q => { w with author := some q })
        (by simp only [hz', assignOnce, if_true]; cases personStruct.child none n <;> rfl) fun _ => rfl
    | 4, hf, hfd =>
      cases hf; cases hfd
      have hz' : w.committer = none := by simpa [commitSlots, Commit.zero] using hz
      exact field_gives (gives_person true) hn (fun q => { w with committer := some q })
        (by simp only [hz', assignOnce, if_true]; cases personStruct.child none n <;> rfl) fun _ => rfl
    | 5, hf, hfd =>
      cases hf; cases hfd
      have hz' : w.encoding = none := by simpa [commitSlots, Commit.zero] using hz
      exact field_gives (gives_string _) hn (fun q => { w with encoding := some q })
        (by simp only [hz', assignOnce]; cases assignString n <;> rfl) fun _ => rfl
    | 6, hf, hfd =>
      cases hf; cases hfd
      have hz' : w.signature = none := by simpa [commitSlots, Commit.zero] using hz
      exact field_gives (gives_gpgSig _) hn (fun q => { w with signature := some q })
        (by simp only [hz', assignOnce]; cases assignGpgSig n <;> rfl) fun _ => rfl
    | 7, hf, hfd =>
      cases hf; cases hfd
      have hz' : w.mergetag = [] := by simpa [commitSlots, Commit.zero] using hz
      exact field_gives (gives_tagList _) hn (fun q => { w with mergetag := q }) (by simp only [hz']) fun _ => rfl
    | 8, hf, hfd =>
      cases hf; cases hfd
      have hz' : w.other = [] := by simpa [commitSlots, Commit.zero] using hz
      exact field_gives (gives_stringList _) hn (fun q => { w with other := q }) (by simp only [hz']) fun _ => rfl
    | i + 9, hf, hfd => cases hf
  · intro v hv; cases v <;> cases hv; exact ⟨_, rfl, rfl⟩
  · intro n h
    cases n with
    | own v => cases v <;> first | rfl | exact absurd rfl (h _ rfl)
    | _ => rfl

theorem gives_commit : Gives false .commit (commitStruct.child (some .zero)) commitVal :=
  have ⟨_, h⟩ := structOf_commit
  gives_struct h (fieldsOf_commit h.shape) false

end Verif
