import Verif.Spec.DeepEqual
import Verif.Proofs.DeepEqual
import Verif.Model.Builders
import Verif.Props.Encode

/-!
# C92: `ipld.DeepEqual` on the nodes of the package
-/

namespace Verif.Props

open Verif Spec

/-- What `DeepEqual` answers, whatever the depth of the two nodes. -/
def Answers (n m : Node) (b : Bool) : Prop := ∃ f₀, ∀ f, f₀ ≤ f → deepEqual f n m = .ok b

theorem answers_unique {n m : Node} {b c : Bool} (h : Answers n m b) (h' : Answers n m c) : b = c := by
  obtain ⟨f, h⟩ := h
  obtain ⟨g, h'⟩ := h'
  have h1 := h (max f g) (by omega)
  rw [h' (max f g) (by omega)] at h1
  injection h1 with h1
  exact h1.symm

theorem eqElems_comm (eq : Node → Node → Res Bool) (h : ∀ x y, eq x y = eq y x) (a b : List Node) :
    eqElems eq a b = eqElems eq b a := by
  induction a generalizing b with
  | nil => cases b <;> rfl
  | cons x a ih =>
    cases b with
    | nil => rfl
    | cons y b =>
      rw [eqElems, eqElems, h x y]
      congr 1
      funext r
      cases r
      · rfl
      · exact ih b

theorem eqEntries_comm (eq : Node → Node → Res Bool) (h : ∀ x y, eq x y = eq y x)
    (a b : List (Bytes × Node)) : eqEntries eq a b = eqEntries eq b a := by
  induction a generalizing b with
  | nil => cases b <;> rfl
  | cons x a ih =>
    obtain ⟨k, x⟩ := x
    cases b with
    | nil => rfl
    | cons y b =>
      obtain ⟨l, y⟩ := y
      rw [eqEntries, eqEntries]
      by_cases hkl : k = l
      · rw [if_pos hkl, if_pos hkl.symm, h x y]
        congr 1
        funext r
        cases r
        · rfl
        · exact ih b
      · rw [if_neg hkl, if_neg (Ne.symm hkl)]

/-- It does not matter which node comes first. -/
theorem deep_equal_comm (f : Nat) (n m : Node) : deepEqual f n m = deepEqual f m n := by
  induction f generalizing n m with
  | zero => rfl
  | succ f ih =>
    rw [deepEqual, deepEqual]
    by_cases hk : n.kind = m.kind
    case neg => rw [if_pos hk, if_pos (Ne.symm hk)]
    rw [if_neg (show ¬ n.kind ≠ m.kind from fun h => h hk), if_neg (show ¬ m.kind ≠ n.kind from fun h => h hk.symm), ← hk]
    cases hn : n.kind with
    | null => simp only [Res.ok.injEq]; exact BEq.comm
    | bool =>
      simp only [Res.ok.injEq]
      cases n <;> cases m <;> first | rfl | exact BEq.comm
    | int =>
      simp only [Res.ok.injEq]
      cases n <;> cases m <;> first | rfl | exact BEq.comm
    | float =>
      simp only [Res.ok.injEq]
      cases n <;> cases m <;> first | rfl | exact BEq.comm
    | string =>
      obtain ⟨a, ha⟩ := kind_string hn
      obtain ⟨b, hb⟩ := kind_string (hk.symm.trans hn)
      simp only [ha, hb, orPanic, Res.bind_ok, Res.ok.injEq]
      exact BEq.comm
    | bytes =>
      obtain ⟨a, ha⟩ := kind_bytes hn
      obtain ⟨b, hb⟩ := kind_bytes (hk.symm.trans hn)
      simp only [ha, hb, orPanic, Res.bind_ok, Res.ok.injEq]
      exact BEq.comm
    | link =>
      obtain ⟨a, ha⟩ := kind_link hn
      obtain ⟨b, hb⟩ := kind_link (hk.symm.trans hn)
      simp only [ha, hb, orPanic, Res.bind_ok, Res.ok.injEq]
      exact BEq.comm
    | list =>
      simp only
      obtain ⟨a, ha, _⟩ := kind_list hn
      obtain ⟨b, hb, _⟩ := kind_list (hk.symm.trans hn)
      rw [ha, hb]
      by_cases hl : n.len = m.len
      · rw [if_neg (show ¬ n.len ≠ m.len from fun h => h hl), if_neg (show ¬ m.len ≠ n.len from fun h => h hl.symm)]
        exact eqElems_comm _ ih a b
      · rw [if_pos hl, if_pos (Ne.symm hl)]
    | map =>
      simp only
      obtain ⟨a, ha, _⟩ := kind_map hn
      obtain ⟨b, hb, _⟩ := kind_map (hk.symm.trans hn)
      rw [ha, hb]
      by_cases hl : n.len = m.len
      · rw [if_neg (show ¬ n.len ≠ m.len from fun h => h hl), if_neg (show ¬ m.len ≠ n.len from fun h => h hl.symm)]
        exact eqEntries_comm _ ih a b
      · rw [if_pos hl, if_pos (Ne.symm hl)]

/-- A node of the package against any node, in either order: `DeepEqual` returns,
with no panic, and says yes exactly if the same data are read from both. -/
theorem deep_equal_reads (n m : Node) (d : Data) (h : Reads n d) :
    ∃ b, Answers n m b ∧ Answers m n b ∧ (b = true ↔ Reads m d) := by
  obtain ⟨f, b, hb, hf⟩ := deepEqual_reads h m
  exact ⟨b, ⟨f, hf⟩, ⟨f, fun g hg => by rw [deep_equal_comm]; exact hf g hg⟩, hb⟩

/-- The values of the package's types, in either view, are such nodes. -/
theorem deep_equal_data (r r' : Bool) (v w : Own) :
    ∃ b, Answers (viewOf r v) (viewOf r' w) b ∧ (b = true ↔ ownData r v = ownData r' w) := by
  obtain ⟨b, hb, _, hi⟩ := deep_equal_reads _ (viewOf r' w) _ (reads_own r v)
  exact ⟨b, hb, hi.trans ⟨fun h => reads_unique h (reads_own r' w), fun h => h ▸ reads_own r' w⟩⟩

theorem ownData_same (r : Bool) (v w : Own) (h : SameValue v w) : ownData r v = ownData r w := by
  cases v <;> cases w <;> first | (cases h; done) | (cases h; rfl; done) | skip
  case tree.tree a b =>
    show Data.map _ = Data.map _
    rw [show a.t = b.t from h]

theorem ownData_alike (r : Bool) (v w : Own) : ownData r v = ownData r w ↔ Alike v w := by
  constructor
  · intro h
    by_cases ht : tyOf v = tyOf w
    · exact .inl (ownData_inj r v w ht h)
    · cases v <;> cases w <;> first
        | exact absurd rfl ht
        | (cases h; done)
        | (injection h with h; exact .inr (.inl ⟨_, rfl, congrArg some h.symm⟩))
        | (injection h with h; exact .inr (.inr (.inl ⟨_, rfl, congrArg some h.symm⟩)))
        | (rename_i a b
           injection h with h
           cases a <;> cases b <;> first
             | exact .inr (.inr (.inr ⟨rfl, rfl⟩))
             | (injection h; done)
             | (injection h with h; cases h; done)
             | (injection h with h; simp [tagData] at h; done))
        | (rename_i a b
           injection h with h
           generalize hr : b.t = rows at h
           cases rows <;> simp [entryData] at h; done)
        | (rename_i a b
           injection h with h
           generalize hr : a.t = rows at h
           cases rows <;> simp [entryData] at h; done)
  · rintro (h | ⟨b, h, h'⟩ | ⟨l, h, h'⟩ | ⟨h, h'⟩)
    · exact ownData_same r v w h
    · cases v <;> cases w <;> first | (cases h; done) | (cases h'; done) | (cases h; cases h'; rfl)
    · cases v <;> cases w <;> first | (cases h; done) | (cases h'; done) | (cases h; cases h'; rfl)
    · have : ∀ u, isEmptyList u = true → ownData r u = .list [] := by
        intro u hu
        cases u with
        | linkList l => cases l <;> first | rfl | cases hu
        | stringList l => cases l <;> first | rfl | cases hu
        | tagList l => cases l <;> first | rfl | cases hu
        | _ => cases hu
      rw [this v h, this w h']

/-- Two values, of whatever types of the package, are equal in one of the two views
exactly if they hold the same data. -/
theorem deep_equal_alike (r : Bool) (v w : Own) :
    ∃ b, Answers (viewOf r v) (viewOf r w) b ∧ (b = true ↔ Alike v w) := by
  obtain ⟨b, hb, hi⟩ := deep_equal_data r r v w
  exact ⟨b, hb, hi.trans (ownData_alike r v w)⟩

theorem alike_same_type (v w : Own) (ht : tyOf v = tyOf w) : Alike v w ↔ SameValue v w := by
  rw [← ownData_alike true v w]
  exact ⟨ownData_inj true v w ht, ownData_same true v w⟩

/-- Of one type: exactly if they are the same value. -/
theorem deep_equal_same (r : Bool) (v w : Own) (ht : tyOf v = tyOf w) :
    ∃ b, Answers (viewOf r v) (viewOf r w) b ∧ (b = true ↔ SameValue v w) := by
  obtain ⟨b, hb, hi⟩ := deep_equal_alike r v w
  exact ⟨b, hb, hi.trans (alike_same_type v w ht)⟩

theorem optData_length {α : Type} (k : Bytes) (f : α → Data) (o : Option α) :
    (optData true k f o).length ≤ (optData false k f o).length ∧
    ((optData true k f o).length = (optData false k f o).length ↔ o ≠ none) := by
  cases o <;> simp [optData]

/-- A value and its representation are equal, unless it is a commit that lacks an
optional field: then they are not. -/
theorem deep_equal_views (v : Own) :
    ∃ b, Answers (.own v) v.representation b ∧ (b = true ↔ ∀ c, v = .commit c → Full c) := by
  obtain ⟨b, hb, hi⟩ := deep_equal_data false true v v
  refine ⟨b, hb, hi.trans ?_⟩
  cases v with
  | commit c =>
    constructor
    · intro h c' hc
      cases hc
      have h := congrArg (fun d => match d with | .map es => es.length | _ => 0) h
      simp only [ownData, commitData, List.length_cons, List.length_append] at h
      obtain ⟨a1, a2⟩ := optData_length b!"author" personData c.author
      obtain ⟨b1, b2⟩ := optData_length b!"committer" personData c.committer
      obtain ⟨c1, c2⟩ := optData_length b!"encoding" .str c.encoding
      obtain ⟨d1, d2⟩ := optData_length b!"signature" .str c.signature
      exact ⟨a2.1 (by omega), b2.1 (by omega), c2.1 (by omega), d2.1 (by omega)⟩
    · intro h
      obtain ⟨h1, h2, h3, h4⟩ := h c rfl
      have : ∀ {α : Type} (k : Bytes) (f : α → Data) (o : Option α), o ≠ none →
          optData false k f o = optData true k f o := by
        intro α k f o h
        cases o with
        | none => exact absurd rfl h
        | some a => rfl
      rw [ownData, ownData, commitData, commitData, this _ _ _ h1, this _ _ _ h2, this _ _ _ h3, this _ _ _ h4]
  | _ => exact ⟨fun _ c h => (by cases h), fun _ => rfl⟩

theorem alike_own (o o' : Obj) : Alike o.own o'.own ↔ Same o o' := by
  constructor
  · rintro (h | ⟨b, h, h'⟩ | ⟨l, h, h'⟩ | ⟨h, h'⟩)
    · cases o <;> cases o' <;> first | exact h | (cases h; done) | (cases h; rfl)
    · cases o <;> cases h
    · cases o <;> cases h
    · cases o <;> cases h
  · intro h
    refine .inl ?_
    cases o <;> cases o' <;> first | exact h | (cases h; done) | (cases h; rfl)

/-- Two git objects, decoded or built, of whatever types: exactly if they are the
same object. -/
theorem deep_equal_objects (r : Bool) (o o' : Obj) :
    ∃ b, Answers (viewOf r o.own) (viewOf r o'.own) b ∧ (b = true ↔ Same o o') := by
  obtain ⟨b, hb, hi⟩ := deep_equal_alike r o.own o'.own
  exact ⟨b, hb, hi.trans (alike_own o o')⟩

theorem encObj_same (o o' : Obj) (h : Same o o') : encObj o = encObj o' := by
  cases o <;> cases o' <;> first | (cases h; done) | (cases h; rfl; done) | skip
  case tree.tree a b =>
    show encTree _ = encTree _
    rw [encTree, encTree, show a.t = b.t from h]

/-- Hence equal objects are stored under the same identifier, and well-formed ones
that are stored under the same bytes are equal. -/
theorem deep_equal_encode (N : Nat) (hN : 4096 ≤ N) (r : Bool) (o o' : Obj) :
    (Answers (viewOf r o.own) (viewOf r o'.own) true → encObj o = encObj o') ∧
    (WellFormed N o → WellFormed N o' → encObj o = encObj o' →
      Answers (viewOf r o.own) (viewOf r o'.own) true) := by
  obtain ⟨b, hb, hi⟩ := deep_equal_objects r o o'
  constructor
  · intro h
    exact encObj_same o o' (hi.1 (answers_unique hb h))
  · intro h h' he
    have : b = true := hi.2 (encode_injective N hN o o' h h' he)
    exact this ▸ hb

/-! ## Cases -/

def bare : Commit :=
  { tree := .cid (gitCid (List.replicate 20 7)), parents := [], message := b!"m", author := none, committer := none,
    encoding := none, signature := none, mergetag := [], other := [] }

def ann : PersonInfo := { date := b!"1", timezone := b!"+0000", email := b!"a@b", name := b!"Ann" }

/-- A person of the package and a foreign map with the same entries; and with the
first two swapped. -/
example : deepEqual 2 (.own (.person ann)) (.map [(b!"date", .str b!"1"), (b!"timezone", .str b!"+0000"),
    (b!"email", .str b!"a@b"), (b!"name", .str b!"Ann")]) = .ok true := by decide +kernel

example : deepEqual 2 (.own (.person ann)) (.map [(b!"timezone", .str b!"+0000"), (b!"date", .str b!"1"),
    (b!"email", .str b!"a@b"), (b!"name", .str b!"Ann")]) = .ok false := by decide +kernel

/-- A commit without author does not equal its representation, but the other views of
it. -/
example : deepEqual 3 (.own (.commit bare)) (.repr (.commit bare)) = .ok false := by decide +kernel

example : deepEqual 3 (.repr (.commit bare)) (.repr (.commit bare)) = .ok true := by decide +kernel

example : ¬ Full bare := fun h => h.1 rfl

/-- Text of two types. -/
example : Alike (.string b!"x") (.gpgSig b!"x") := .inr (.inl ⟨_, rfl, rfl⟩)

example : deepEqual 1 (.own (.string b!"x")) (.own (.gpgSig b!"x")) = .ok true := by decide +kernel

/-- Trees with the same rows and different lookup maps. -/
example : Same (.tree ⟨[(b!"a", ⟨b!"40000", .nil⟩)], []⟩) (.tree ⟨[], []⟩) := rfl

end Verif.Props
