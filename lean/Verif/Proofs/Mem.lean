import Verif.Spec.Handles

/-!
# Paths in memory, and values in memory

`Rep n μ t v x F`: the part `x` of the memory `μ` stands for the value `v` of type
`t`, and the objects that it points to are all in `F` and pointed to once. Fields of
`v` that are not given are zero.
-/

namespace Verif.Handles

open Calls Spec

/-! ## Paths -/

def Valid : List Nat → MVal → Prop
  | [], _ => True
  | i :: p, .struct fs => ∃ x, fs[i]? = some x ∧ Valid p x
  | i :: p, .arr vs => ∃ x, vs[i]? = some x ∧ Valid p x
  | _ :: p, .maybe _ v => Valid p v
  | _ :: _, _ => False

theorem get_append (p q : List Nat) (v : MVal) : v.get (p ++ q) = (v.get p).get q := by
  induction p generalizing v with
  | nil => rfl
  | cons i p ih =>
    cases v <;> simp only [List.cons_append, MVal.get, ih] <;> (cases q <;> rfl)

theorem set_append (p q : List Nat) (v x : MVal) : v.set (p ++ q) x = v.set p ((v.get p).set q x) := by
  induction p generalizing v with
  | nil => rfl
  | cons i p ih => cases v <;> simp only [List.cons_append, MVal.set, MVal.get, ih]

theorem get_set {p : List Nat} {v : MVal} (h : Valid p v) (x : MVal) : (v.set p x).get p = x := by
  induction p generalizing v with
  | nil => rfl
  | cons i p ih =>
    cases v with
    | struct fs =>
      obtain ⟨y, hy, hv⟩ := h
      have hlt : i < fs.length := (List.getElem?_eq_some_iff.1 hy).1
      simp only [MVal.set, MVal.get, List.getElem?_set_self hlt, hy, Option.getD_some]
      exact ih hv
    | arr fs =>
      obtain ⟨y, hy, hv⟩ := h
      have hlt : i < fs.length := (List.getElem?_eq_some_iff.1 hy).1
      simp only [MVal.set, MVal.get, List.getElem?_set_self hlt, hy, Option.getD_some]
      exact ih hv
    | maybe m v => exact ih (v := v) h
    | _ => cases h

theorem set_set {p : List Nat} {v : MVal} (h : Valid p v) (x y : MVal) :
    (v.set p x).set p y = v.set p y := by
  induction p generalizing v with
  | nil => rfl
  | cons i p ih =>
    cases v with
    | struct fs =>
      obtain ⟨z, hz, hv⟩ := h
      have hlt : i < fs.length := (List.getElem?_eq_some_iff.1 hz).1
      simp only [MVal.set, List.getElem?_set_self hlt, hz, Option.getD_some, List.set_set, ih hv]
    | arr fs =>
      obtain ⟨z, hz, hv⟩ := h
      have hlt : i < fs.length := (List.getElem?_eq_some_iff.1 hz).1
      simp only [MVal.set, List.getElem?_set_self hlt, hz, Option.getD_some, List.set_set, ih hv]
    | maybe m v => simp only [MVal.set, ih (v := v) h]
    | _ => cases h

theorem set_get {p : List Nat} {v : MVal} (h : Valid p v) : v.set p (v.get p) = v := by
  induction p generalizing v with
  | nil => rfl
  | cons i p ih =>
    cases v with
    | struct fs =>
      obtain ⟨z, hz, hv⟩ := h
      obtain ⟨hlt, he⟩ := List.getElem?_eq_some_iff.1 hz
      simp only [MVal.set, MVal.get, hz, Option.getD_some, ih hv]
      rw [← he, List.set_getElem_self]
    | arr fs =>
      obtain ⟨z, hz, hv⟩ := h
      obtain ⟨hlt, he⟩ := List.getElem?_eq_some_iff.1 hz
      simp only [MVal.set, MVal.get, hz, Option.getD_some, ih hv]
      rw [← he, List.set_getElem_self]
    | maybe m v => simp only [MVal.set, MVal.get, ih (v := v) h]
    | _ => cases h

theorem valid_append {p q : List Nat} {v : MVal} (h : Valid p v) (h' : Valid q (v.get p)) :
    Valid (p ++ q) v := by
  induction p generalizing v with
  | nil => exact h'
  | cons i p ih =>
    cases v with
    | struct fs =>
      obtain ⟨z, hz, hv⟩ := h
      refine ⟨z, hz, ih hv ?_⟩
      simpa only [MVal.get, hz, Option.getD_some] using h'
    | arr fs =>
      obtain ⟨z, hz, hv⟩ := h
      refine ⟨z, hz, ih hv ?_⟩
      simpa only [MVal.get, hz, Option.getD_some] using h'
    | maybe m v => exact ih (v := v) h h'
    | _ => cases h

theorem valid_set {p : List Nat} {v : MVal} (h : Valid p v) (x : MVal) : Valid p (v.set p x) := by
  induction p generalizing v with
  | nil => trivial
  | cons i p ih =>
    cases v with
    | struct fs =>
      obtain ⟨z, hz, hv⟩ := h
      have hlt : i < fs.length := (List.getElem?_eq_some_iff.1 hz).1
      exact ⟨_, List.getElem?_set_self hlt, by rw [hz]; exact ih hv⟩
    | arr fs =>
      obtain ⟨z, hz, hv⟩ := h
      have hlt : i < fs.length := (List.getElem?_eq_some_iff.1 hz).1
      exact ⟨_, List.getElem?_set_self hlt, by rw [hz]; exact ih hv⟩
    | maybe m v => exact ih (v := v) h
    | _ => cases h

theorem write_same (μ : Mem) (p : Ptr) (x : MVal) : (μ.write p x).at' p.1 = (μ.at' p.1).set p.2 x := by
  simp [Mem.write]

theorem write_other (μ : Mem) {p : Ptr} (x : MVal) {r : Nat} (h : r ≠ p.1) :
    (μ.write p x).at' r = μ.at' r := by
  simp [Mem.write, h]

theorem read_write {μ : Mem} {p : Ptr} (h : Valid p.2 (μ.at' p.1)) (x : MVal) :
    (μ.write p x).read p = x := by
  rw [Mem.read, write_same]
  exact get_set h x

theorem alloc_old (μ : Mem) (x : MVal) {r : Nat} (h : r < μ.next) : (μ.alloc x).at' r = μ.at' r := by
  have : r ≠ μ.next := by omega
  simp [Mem.alloc, this]

theorem alloc_new (μ : Mem) (x : MVal) : (μ.alloc x).at' μ.next = x := by simp [Mem.alloc]

/-! ## Values -/

abbrev Foot := Nat → Prop

/-- The footprints of different parts have nothing in common. -/
def Apart (G : Nat → Foot) : Prop := ∀ i j r, G i r → G j r → i = j

/-- A field in memory. -/
def RepField (R : T → Val → MVal → Foot → Prop) (μ : Mem) (fd : FieldT) (o : Option Val) (x : MVal)
    (F : Foot) : Prop :=
  if fd.required then R fd.ty (o.getD (T.zero fd.ty)) x F
  else if FieldT.byRef fd then
    match o with
    | none => x = .maybe .absent (.ref none)
    | some v => ∃ r H, x = .maybe .value (.ref (some (r, []))) ∧ F r ∧ ¬ H r ∧ (∀ q, H q → F q) ∧
        R fd.ty v (μ.at' r) H
  else
    match o with
    | none => ∃ y, x = .maybe .absent y ∧ R fd.ty (T.zero fd.ty) y F
    | some v => ∃ y, x = .maybe .value y ∧ R fd.ty v y F

def Rep (n : Nat) (μ : Mem) (t : T) (v : Val) (x : MVal) (F : Foot) : Prop :=
  match n, t.shape with
  | _, .text => ∃ b, v = .text b ∧ x = .text b
  | _, .link => ∃ l, v = .link l ∧ x = .link l
  | n + 1, .list e => ∃ vs r cap, v = .list vs ∧ x = .slice r vs.length cap ∧ vs.length ≤ cap ∧
      (cap = 0 ∨ ∃ xs G, μ.at' r = .arr xs ∧ vs.length ≤ xs.length ∧ F r ∧ Apart G ∧
        (∀ i q, G i q → F q ∧ q ≠ r) ∧
        ∀ i v x, vs[i]? = some v → xs[i]? = some x → Rep n μ e v x (G i))
  | n + 1, .struct fs => ∃ l xs G, v = .struct l ∧ x = .struct xs ∧ l.length = fs.length ∧
      xs.length = fs.length ∧ Apart G ∧ (∀ i q, G i q → F q) ∧
      ∀ i fd o x, fs[i]? = some fd → l[i]? = some o → xs[i]? = some x → RepField (Rep n μ) μ fd o x (G i)
  | _, _ => False

theorem repField_imp {R R' : T → Val → MVal → Foot → Prop} {μ μ' : Mem} {fd : FieldT} {o : Option Val}
    {x : MVal} {F F' : Foot} (h : RepField R μ fd o x F) (hF : ∀ r, F r → F' r)
    (hμ : ∀ r, F r → μ'.at' r = μ.at' r)
    (hR : ∀ v x H H', (∀ r, H r → F r) → (∀ r, H r → H' r) → R fd.ty v x H → R' fd.ty v x H') :
    RepField R' μ' fd o x F' := by
  unfold RepField at h ⊢
  split at h <;> rename_i hr
  · rw [if_pos hr]
    exact hR _ _ _ _ (fun _ h => h) hF h
  · rw [if_neg hr]
    split at h <;> rename_i hb
    · rw [if_pos hb]
      split at h
      · exact h
      · obtain ⟨r, H, h1, h2, h3, h4, h5⟩ := h
        refine ⟨r, H, h1, hF _ h2, h3, fun q hq => hF _ (h4 q hq), ?_⟩
        rw [hμ r h2]
        exact hR _ _ _ _ h4 (fun _ h => h) h5
    · rw [if_neg hb]
      split at h
      · obtain ⟨y, h1, h2⟩ := h
        exact ⟨y, h1, hR _ _ _ _ (fun _ h => h) hF h2⟩
      · obtain ⟨y, h1, h2⟩ := h
        exact ⟨y, h1, hR _ _ _ _ (fun _ h => h) hF h2⟩

/-- A value stays when the objects it points to stay, and may be said to take more
room. -/
theorem rep_frame {n : Nat} {μ μ' : Mem} {t : T} {v : Val} {x : MVal} {F F' : Foot}
    (h : Rep n μ t v x F) (hF : ∀ r, F r → F' r) (hμ : ∀ r, F r → μ'.at' r = μ.at' r) :
    Rep n μ' t v x F' := by
  induction n generalizing t v x F F' with
  | zero =>
    unfold Rep at h ⊢
    cases hs : t.shape <;> rw [hs] at h <;> simp only at h ⊢ <;> exact h
  | succ n ih =>
    unfold Rep at h ⊢
    cases hs : t.shape with
    | text => rw [hs] at h; exact h
    | link => rw [hs] at h; exact h
    | list e =>
      rw [hs] at h
      obtain ⟨vs, r, cap, h1, h2, h3, h4⟩ := h
      refine ⟨vs, r, cap, h1, h2, h3, ?_⟩
      rcases h4 with h4 | ⟨xs, G, h4, h5, h6, h7, h8, h9⟩
      · exact Or.inl h4
      · exact Or.inr ⟨xs, G, by rw [hμ r h6]; exact h4, h5, hF r h6, h7,
          fun i q hq => ⟨hF _ (h8 i q hq).1, (h8 i q hq).2⟩,
          fun i v x hv hx => ih (h9 i v x hv hx) (fun _ h => h) fun q hq => hμ q (h8 i q hq).1⟩
    | struct fs =>
      rw [hs] at h
      obtain ⟨l, xs, G, h1, h2, h3, h4, h5, h6, h7⟩ := h
      refine ⟨l, xs, G, h1, h2, h3, h4, h5, fun i q hq => hF _ (h6 i q hq), fun i fd o x hf ho hx => ?_⟩
      refine repField_imp (h7 i fd o x hf ho hx) (fun _ h => h) (fun r hr => hμ r (h6 i r hr)) ?_
      intro v x H H' hH hH' hR
      exact ih hR hH' fun r hr => hμ r (h6 i r (hH r hr))

theorem rep_mono {n : Nat} {μ : Mem} {t : T} {v : Val} {x : MVal} {F F' : Foot}
    (h : Rep n μ t v x F) (hF : ∀ r, F r → F' r) : Rep n μ t v x F' :=
  rep_frame h hF fun _ _ => rfl

/-- The types of fields and elements are less nested. -/
theorem rank_elem {t e : T} (h : t.shape = .list e) : rank e < rank t := by
  cases t <;> cases h <;> decide

theorem rank_field {t : T} {fs : List FieldT} (h : t.shape = .struct fs) {i : Nat} {fd : FieldT}
    (hf : fs[i]? = some fd) : rank fd.ty < rank t := by
  have hm : fd ∈ fs := List.mem_of_getElem? hf
  cases t <;> cases h <;> simp only [List.mem_cons, List.not_mem_nil, or_false] at hm <;>
    rcases hm with h | h | h | h | h | h | h | h | h <;> subst_vars <;> decide

theorem rank_struct {t : T} {fs : List FieldT} (h : t.shape = .struct fs) : 0 < rank t := by
  cases t <;> cases h <;> decide

theorem rep_text {n : Nat} {μ : Mem} {t : T} {v : Val} {x : MVal} {F : Foot} (h : t.shape = .text) :
    Rep n μ t v x F ↔ ∃ b, v = .text b ∧ x = .text b := by
  cases n <;> simp only [Rep, h]

theorem rep_link {n : Nat} {μ : Mem} {t : T} {v : Val} {x : MVal} {F : Foot} (h : t.shape = .link) :
    Rep n μ t v x F ↔ ∃ b, v = .link b ∧ x = .link b := by
  cases n <;> simp only [Rep, h]

/-- The zero value. -/
theorem rep_zero {n m : Nat} (μ : Mem) {t : T} (hn : rank t ≤ n) (hm : rank t ≤ m) (F : Foot) :
    Rep n μ t (T.zero t) (Handles.zeroM m t) F := by
  induction n generalizing m t F with
  | zero =>
    cases hs : t.shape with
    | text => rw [rep_text hs]; exact ⟨[], by simp [T.zero, hs], by unfold Handles.zeroM; simp [hs]⟩
    | link => rw [rep_link hs]; exact ⟨.nil, by simp [T.zero, hs], by unfold Handles.zeroM; simp [hs]⟩
    | list e => have := rank_elem hs; omega
    | struct fs => have := rank_struct hs; omega
  | succ n ih =>
    cases hs : t.shape with
    | text => rw [rep_text hs]; exact ⟨[], by simp [T.zero, hs], by unfold Handles.zeroM; simp [hs]⟩
    | link => rw [rep_link hs]; exact ⟨.nil, by simp [T.zero, hs], by unfold Handles.zeroM; simp [hs]⟩
    | list e =>
      unfold Rep
      rw [hs]
      exact ⟨[], 0, 0, by simp [T.zero, hs], by unfold Handles.zeroM; simp [hs], by simp, Or.inl rfl⟩
    | struct fs =>
      have hm0 : ∃ k, m = k + 1 := ⟨m - 1, by have := rank_struct hs; omega⟩
      obtain ⟨k, rfl⟩ := hm0
      unfold Rep
      rw [hs]
      have e : Handles.zeroM (k + 1) t = .struct (fs.map fun fd =>
          if fd.required then Handles.zeroM k fd.ty
          else .maybe .absent (if FieldT.byRef fd then .ref none else Handles.zeroM k fd.ty)) := by
        conv => lhs; unfold Handles.zeroM
        simp only [hs]
      refine ⟨fs.map fun _ => none, _, fun _ _ => False, by simp [T.zero, hs], e, by simp, by simp,
        fun _ _ _ h => h.elim, fun _ _ h => h.elim, ?_⟩
      intro i fd o x hf ho hx
      have hr := rank_field hs hf
      rw [List.getElem?_map, hf] at ho hx
      cases ho
      cases hx
      unfold RepField
      have hk := ih (m := k) (t := fd.ty) (by omega) (by omega)
      cases hq : fd.required
      · cases hb : FieldT.byRef fd
        · simp only [hq, hb, Bool.false_eq_true, if_false]
          exact ⟨_, rfl, hk _⟩
        · simp only [hq, hb, Bool.false_eq_true, if_false, if_true]
      · simp only [hq, if_true]
        exact hk _

/-- What putting things into memory does: nothing that was there changes, and what
they need besides is new. -/
structure Puts (μ μ' : Mem) (P : Mem → Foot → Prop) : Prop where
  next : μ.next ≤ μ'.next
  old : ∀ r, r < μ.next → μ'.at' r = μ.at' r
  rep : P μ' fun r => μ.next ≤ r ∧ r < μ'.next

theorem storeAll_ok {α : Type} (st : α → Mem → Mem × MVal) (P : α → MVal → Mem → Foot → Prop)
    (hP : ∀ a x μ μ' F F', P a x μ F → (∀ r, F r → F' r) → (∀ r, F r → μ'.at' r = μ.at' r) → P a x μ' F')
    (l : List α) (hst : ∀ a ∈ l, ∀ μ, Puts μ (st a μ).1 (P a (st a μ).2)) (μ : Mem) :
    Puts μ (storeAll st l μ).1 fun μ' F => (storeAll st l μ).2.length = l.length ∧
      ∃ G, Apart G ∧ (∀ i q, G i q → F q) ∧
        ∀ i a x, l[i]? = some a → (storeAll st l μ).2[i]? = some x → P a x μ' (G i) := by
  induction l generalizing μ with
  | nil => exact ⟨Nat.le_refl _, fun _ _ => rfl, rfl, fun _ _ => False, fun _ _ _ h => h.elim,
      fun _ _ h => h.elim, fun i a x h => by simp at h⟩
  | cons b r ih =>
    obtain ⟨h1, h2, h3⟩ := hst b (by simp) μ
    obtain ⟨g1, g2, g3, G, g4, g5, g6⟩ := ih (fun a ha => hst a (by simp [ha])) (st b μ).1
    refine ⟨Nat.le_trans h1 g1, fun q hq => ?_, ?_, ?_⟩
    · rw [storeAll, g2 q (by omega)]; exact h2 q hq
    · simp [storeAll, g3]
    · refine ⟨fun i => match i with
        | 0 => fun q => μ.next ≤ q ∧ q < (st b μ).1.next
        | i + 1 => G i, ?_, ?_, ?_⟩
      · intro i j q hi hj
        cases i with
        | zero =>
          cases j with
          | zero => rfl
          | succ j => have := g5 j q hj; simp only at hi this; omega
        | succ i =>
          cases j with
          | zero => have := g5 i q hi; simp only at hj this; omega
          | succ j => rw [g4 i j q hi hj]
      · intro i q hi
        simp only [storeAll]
        cases i with
        | zero => simp only at hi; omega
        | succ i => have := g5 i q hi; simp only at this; omega
      · intro i a x ha hx
        cases i with
        | zero =>
          cases ha
          cases hx
          exact hP _ _ _ _ _ _ h3 (fun _ h => h) fun q hq => g2 q hq.2
        | succ i => exact g6 i a x ha hx

/-- A complete value put into memory. -/
theorem store_ok {n m : Nat} {t : T} {v : Val} (hn : rank t ≤ n) (hm : rank t ≤ m) (hv : Complete t v)
    (μ : Mem) : Puts μ (store m t v μ).1 fun μ' F => Rep n μ' t v (store m t v μ).2 F := by
  induction n generalizing m t v μ with
  | zero =>
    cases hv with
    | text hs b =>
      have e : store m t (.text b) μ = (μ, .text b) := by unfold store; simp only [hs]
      rw [e]
      exact ⟨Nat.le_refl _, fun _ _ => rfl, (rep_text hs).2 ⟨b, rfl, rfl⟩⟩
    | link hs l =>
      have e : store m t (.link l) μ = (μ, .link l) := by unfold store; simp only [hs]
      rw [e]
      exact ⟨Nat.le_refl _, fun _ _ => rfl, (rep_link hs).2 ⟨l, rfl, rfl⟩⟩
    | list hs => have := rank_elem hs; omega
    | struct hs => have := rank_struct hs; omega
  | succ n ih =>
    cases hv with
    | text hs b =>
      have e : store m t (.text b) μ = (μ, .text b) := by unfold store; simp only [hs]
      rw [e]
      exact ⟨Nat.le_refl _, fun _ _ => rfl, (rep_text hs).2 ⟨b, rfl, rfl⟩⟩
    | link hs l =>
      have e : store m t (.link l) μ = (μ, .link l) := by unfold store; simp only [hs]
      rw [e]
      exact ⟨Nat.le_refl _, fun _ _ => rfl, (rep_link hs).2 ⟨l, rfl, rfl⟩⟩
    | @list _ e hs vs hvs =>
      have hr := rank_elem hs
      obtain ⟨k, rfl⟩ : ∃ k, m = k + 1 := ⟨m - 1, by omega⟩
      have e' : store (k + 1) t (.list vs) μ = ((storeAll (store k e) vs μ).1.alloc
          (.arr (storeAll (store k e) vs μ).2), .slice (storeAll (store k e) vs μ).1.next vs.length vs.length) := by
        conv => lhs; unfold store
        simp only [hs]
      rw [e']
      obtain ⟨g1, g2, g3, G, g4, g5, g6⟩ := storeAll_ok (store k e) (fun v x μ F => Rep n μ e v x F)
        (fun a x μ μ' F F' h h1 h2 => rep_frame h h1 h2) vs
        (fun v hv μ => ih (by omega) (by omega) (hvs v hv) μ) μ
      refine ⟨by simp only [Mem.alloc]; omega, fun q hq => ?_, ?_⟩
      · show (Mem.alloc _ _).at' q = _
        rw [alloc_old _ _ (by omega)]
        exact g2 q hq
      · unfold Rep
        rw [hs]
        refine ⟨vs, _, vs.length, rfl, rfl, Nat.le_refl _, Or.inr ⟨_, G, alloc_new _ _, by omega, ?_, g4, ?_, ?_⟩⟩
        · simp only [Mem.alloc]; omega
        · intro i q hq
          have := g5 i q hq
          simp only [Mem.alloc] at this ⊢
          omega
        · intro i v x hv hx
          exact rep_frame (g6 i v x hv hx) (fun _ h => h) fun q hq => alloc_old _ _ (g5 i q hq).2
    | @struct _ fs hs l hl hg hf =>
      obtain ⟨k, rfl⟩ : ∃ k, m = k + 1 := ⟨m - 1, by have := rank_struct hs; omega⟩
      have e' : store (k + 1) t (.struct l) μ = ((storeAll (storeField (store k) (Handles.zeroM k)) (fs.zip l) μ).1,
          .struct (storeAll (storeField (store k) (Handles.zeroM k)) (fs.zip l) μ).2) := by
        conv => lhs; unfold store
        simp only [hs]
      rw [e']
      obtain ⟨g1, g2, g3, G, g4, g5, g6⟩ := storeAll_ok (storeField (store k) (Handles.zeroM k))
        (fun a x μ F => RepField (Rep n μ) μ a.1 a.2 x F)
        (fun a x μ μ' F F' h h1 h2 => repField_imp h h1 h2 fun v x H H' hH hH' hR =>
          rep_frame hR hH' fun r hr => h2 r (hH r hr)) (fs.zip l)
        (by
          rintro ⟨fd, o⟩ ha μ
          obtain ⟨i, hi⟩ := List.getElem?_of_mem ha
          rw [List.getElem?_zip_eq_some] at hi
          obtain ⟨hi1, hi2⟩ := hi
          have hi1 : fs[i]? = some fd := hi1
          have hi2 : l[i]? = some o := hi2
          have hr := rank_field hs hi1
          have hst : ∀ v, o = some v → Puts μ (store k fd.ty v μ).1
              fun μ' F => Rep n μ' fd.ty v (store k fd.ty v μ).2 F := by
            intro v hv
            exact ih (by omega) (by omega) (hf i fd v hi1 (by rw [hi2, hv])) μ
          have hz : ∀ F, Rep n μ fd.ty (T.zero fd.ty) (Handles.zeroM k fd.ty) F :=
            fun F => rep_zero μ (by omega) (by omega) F
          unfold storeField RepField
          cases hq : fd.required
          · simp only [Bool.false_eq_true, if_false]
            cases hb : FieldT.byRef fd
            · simp only [Bool.false_eq_true, if_false]
              cases o with
              | none => exact ⟨Nat.le_refl _, fun _ _ => rfl, _, rfl, hz _⟩
              | some v =>
                obtain ⟨s1, s2, s3⟩ := hst v rfl
                exact ⟨s1, s2, _, rfl, s3⟩
            · simp only [if_true]
              cases o with
              | none => exact ⟨Nat.le_refl _, fun _ _ => rfl, rfl⟩
              | some v =>
                obtain ⟨s1, s2, s3⟩ := hst v rfl
                refine ⟨by simp only [Mem.alloc]; omega, fun q hq => ?_, ?_⟩
                · show (Mem.alloc _ _).at' q = _
                  rw [alloc_old _ _ (by omega)]
                  exact s2 q hq
                · refine ⟨_, fun r => μ.next ≤ r ∧ r < (store k fd.ty v μ).1.next, rfl, ?_, ?_, ?_, ?_⟩
                  · show _ ≤ _ ∧ _ < _ + 1; omega
                  · show ¬ (_ ≤ _ ∧ _ < _); omega
                  · intro q hq; show _ ≤ _ ∧ _ < _ + 1; omega
                  · show Rep n _ _ _ ((Mem.alloc _ _).at' _) _
                    rw [alloc_new]
                    exact rep_frame s3 (fun _ h => h) fun q hq => alloc_old _ _ hq.2
          · simp only [if_true]
            cases o with
            | none => exact ⟨Nat.le_refl _, fun _ _ => rfl, hz _⟩
            | some v => exact hst v rfl) μ
      refine ⟨g1, g2, ?_⟩
      unfold Rep
      rw [hs]
      have hlen : (fs.zip l).length = fs.length := by rw [List.length_zip]; omega
      refine ⟨l, _, G, rfl, rfl, hl, by omega, g4, g5, ?_⟩
      intro i fd o x hfd ho hx
      exact g6 i (fd, o) x (by rw [List.getElem?_zip_eq_some]; exact ⟨hfd, ho⟩) hx

/-- Reading a complete value. -/
theorem load_rep {n m : Nat} {μ : Mem} {t : T} {v : Val} {x : MVal} {F : Foot} (hm : rank t ≤ m)
    (hv : Complete t v) (h : Rep n μ t v x F) : load m t μ x = v := by
  induction n generalizing m t v x F with
  | zero =>
    cases hv with
    | text hs b =>
      obtain ⟨c, h1, h2⟩ := (rep_text hs).1 h
      cases h1; subst h2
      unfold load; simp only [hs]
    | link hs l =>
      obtain ⟨c, h1, h2⟩ := (rep_link hs).1 h
      cases h1; subst h2
      unfold load; simp only [hs]
    | list hs => unfold Rep at h; rw [hs] at h; exact h.elim
    | struct hs => unfold Rep at h; rw [hs] at h; exact h.elim
  | succ n ih =>
    cases hv with
    | text hs b =>
      obtain ⟨c, h1, h2⟩ := (rep_text hs).1 h
      cases h1; subst h2
      unfold load; simp only [hs]
    | link hs l =>
      obtain ⟨c, h1, h2⟩ := (rep_link hs).1 h
      cases h1; subst h2
      unfold load; simp only [hs]
    | @list _ e hs vs hvs =>
      have hr := rank_elem hs
      obtain ⟨k, rfl⟩ : ∃ k, m = k + 1 := ⟨m - 1, by omega⟩
      unfold Rep at h
      rw [hs] at h
      obtain ⟨vs', r, cap, h1, h2, h3, h4⟩ := h
      cases h1
      subst h2
      conv => lhs; unfold load
      simp only [hs]
      rcases h4 with h4 | ⟨xs, G, h5, h6, h7, h8, h9, h10⟩
      · have : vs = [] := List.length_eq_zero_iff.1 (by omega)
        subst this
        split <;> simp
      · rw [h5]
        simp only
        congr 1
        apply List.ext_getElem?
        intro i
        rw [List.getElem?_map]
        by_cases hi : i < vs.length
        · rw [List.getElem?_take_of_lt hi]
          obtain ⟨y, hy⟩ : ∃ y, xs[i]? = some y := ⟨_, List.getElem?_eq_getElem (by omega)⟩
          obtain ⟨v, hv⟩ : ∃ v, vs[i]? = some v := ⟨_, List.getElem?_eq_getElem hi⟩
          rw [hy, hv, Option.map_some, ih (by omega) (hvs v (List.mem_of_getElem? hv)) (h10 i v y hv hy)]
        · rw [List.getElem?_eq_none (by simp; omega), List.getElem?_eq_none (by omega)]
          rfl
    | @struct _ fs hs l hl hg hf =>
      obtain ⟨k, rfl⟩ : ∃ k, m = k + 1 := ⟨m - 1, by have := rank_struct hs; omega⟩
      unfold Rep at h
      rw [hs] at h
      obtain ⟨l', xs, G, h1, h2, h3, h4, h5, h6, h7⟩ := h
      cases h1
      subst h2
      conv => lhs; unfold load
      simp only [hs]
      congr 1
      apply List.ext_getElem?
      intro i
      rw [List.getElem?_map]
      by_cases hi : i < fs.length
      · obtain ⟨fd, hfd⟩ : ∃ y, fs[i]? = some y := ⟨_, List.getElem?_eq_getElem hi⟩
        obtain ⟨y, hy⟩ : ∃ y, xs[i]? = some y := ⟨_, List.getElem?_eq_getElem (by omega)⟩
        obtain ⟨o, ho⟩ : ∃ v, l[i]? = some v := ⟨_, List.getElem?_eq_getElem (by omega)⟩
        have hz : (fs.zip xs)[i]? = some (fd, y) := by rw [List.getElem?_zip_eq_some]; exact ⟨hfd, hy⟩
        have hR := h7 i fd o y hfd ho hy
        have hr := rank_field hs hfd
        have hc : ∀ v, o = some v → Complete fd.ty v := fun v hv => hf i fd v hfd (by rw [ho, hv])
        rw [hz, ho, Option.map_some]
        congr 1
        unfold RepField at hR
        split at hR <;> rename_i hq
        · obtain ⟨v, hv⟩ := hg i fd hfd hq
          rw [ho] at hv
          cases hv
          simp only [hq, if_true]
          rw [ih (by omega) (hc v rfl) hR]
        · simp only [hq, if_false]
          split at hR
          · split at hR
            · subst hR; rfl
            · rename_i v
              obtain ⟨r, H, hR1, hR2, hR3, hR4, hR5⟩ := hR
              subst hR1
              simp only [Mem.read, MVal.get]
              rw [ih (by omega) (hc v rfl) hR5]; rfl
          · rename_i hb
            split at hR
            · obtain ⟨y', hR1, hR2⟩ := hR
              subst hR1; rfl
            · rename_i v
              obtain ⟨y', hR1, hR2⟩ := hR
              subst hR1
              have hy' : ∀ p, y' ≠ .ref p := by
                intro p hp
                subst hp
                have hb' : FieldT.byRef fd ≠ true := hb
                cases hsf : fd.ty.shape with
                | text => obtain ⟨b, _, hb2⟩ := (rep_text hsf).1 hR2; cases hb2
                | link => obtain ⟨b, _, hb2⟩ := (rep_link hsf).1 hR2; cases hb2
                | list e =>
                  unfold Rep at hR2
                  rw [hsf] at hR2
                  cases n with
                  | zero => exact hR2.elim
                  | succ n =>
                    obtain ⟨_, _, _, _, h, _⟩ := hR2
                    cases h
                | struct _ => simp [FieldT.byRef, hsf] at hb'
              have hl' := ih (m := k) (by omega) (hc v rfl) hR2
              cases y' with
              | ref p => exact absurd rfl (hy' p)
              | _ => show some (load k fd.ty μ _) = some v; rw [hl']
      · rw [List.getElem?_eq_none (by rw [List.length_zip]; omega), List.getElem?_eq_none (by omega)]
        rfl

end Verif.Handles
