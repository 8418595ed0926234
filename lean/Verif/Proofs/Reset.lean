import Verif.Proofs.HandlesAfter
import Verif.Spec.Reset

/-! Builders whose memory differs only in where it is behave alike. -/

namespace Verif.Handles

open Calls Spec

/-- Pointers into `[lo, n)` and the same pointers `δ` further. -/
def PtrR (lo δ n : Nat) (p p' : Ptr) : Prop := lo ≤ p.1 ∧ p.1 < n ∧ p' = (p.1 + δ, p.2)

/-- Values that differ only in where their pointers point. -/
inductive ValR (lo δ n : Nat) : MVal → MVal → Prop where
  | text (b : Bytes) : ValR lo δ n (.text b) (.text b)
  | link (l : Link) : ValR lo δ n (.link l) (.link l)
  | slice {r l c : Nat} : lo ≤ r → r < n → ValR lo δ n (.slice r l c) (.slice (r + δ) l c)
  | empty {r r' : Nat} : ValR lo δ n (.slice r 0 0) (.slice r' 0 0)
  | struct {fs fs' : List MVal} : fs.length = fs'.length →
      (∀ (i : Nat) (x x' : MVal), fs[i]? = some x → fs'[i]? = some x' → ValR lo δ n x x') →
      ValR lo δ n (.struct fs) (.struct fs')
  | maybe {m : Maybe} {v v' : MVal} : ValR lo δ n v v' → ValR lo δ n (.maybe m v) (.maybe m v')
  | nil : ValR lo δ n (.ref none) (.ref none)
  | ref {p p' : Ptr} : PtrR lo δ n p p' → ValR lo δ n (.ref (some p)) (.ref (some p'))
  | arr {fs fs' : List MVal} : fs.length = fs'.length →
      (∀ (i : Nat) (x x' : MVal), fs[i]? = some x → fs'[i]? = some x' → ValR lo δ n x x') →
      ValR lo δ n (.arr fs) (.arr fs')

/-- Memories that agree but for where things are. -/
structure MemR (lo δ : Nat) (μ μ' : Mem) : Prop where
  low : lo ≤ μ.next
  next : μ'.next = μ.next + δ
  at' : ∀ r, lo ≤ r → r < μ.next → ValR lo δ μ.next (μ.at' r) (μ'.at' (r + δ))

theorem valR_mono {lo δ n n' : Nat} (hn : n ≤ n') {v v' : MVal} (h : ValR lo δ n v v') : ValR lo δ n' v v' := by
  induction h with
  | text b => exact .text b
  | link l => exact .link l
  | slice h1 h2 => exact .slice h1 (by omega)
  | empty => exact .empty
  | struct h1 _ ih => exact .struct h1 ih
  | maybe _ ih => exact .maybe ih
  | nil => exact .nil
  | ref h => exact .ref ⟨h.1, by have := h.2.1; omega, h.2.2⟩
  | arr h1 _ ih => exact .arr h1 ih

theorem listR_get {lo δ n : Nat} {fs fs' : List MVal} (hl : fs.length = fs'.length)
    (h : ∀ (i : Nat) (x x' : MVal), fs[i]? = some x → fs'[i]? = some x' → ValR lo δ n x x') (i : Nat) :
    ValR lo δ n ((fs[i]?).getD (.ref none)) ((fs'[i]?).getD (.ref none)) := by
  by_cases hi : i < fs.length
  · rw [List.getElem?_eq_getElem hi, List.getElem?_eq_getElem (hl ▸ hi)]
    exact h i _ _ (List.getElem?_eq_getElem hi) (List.getElem?_eq_getElem (hl ▸ hi))
  · rw [List.getElem?_eq_none (by omega), List.getElem?_eq_none (by omega)]
    exact .nil

theorem listR_set {lo δ n : Nat} {fs fs' : List MVal}
    (h : ∀ (i : Nat) (x x' : MVal), fs[i]? = some x → fs'[i]? = some x' → ValR lo δ n x x') {j : Nat} {y y' : MVal}
    (hy : ValR lo δ n y y') :
    ∀ (i : Nat) (x x' : MVal), (fs.set j y)[i]? = some x → (fs'.set j y')[i]? = some x' → ValR lo δ n x x' := by
  intro i x x' hx hx'
  rw [List.getElem?_set] at hx hx'
  by_cases hij : j = i
  · rw [if_pos hij] at hx hx'
    split at hx
    · split at hx'
      · cases hx; cases hx'; exact hy
      · cases hx'
    · cases hx
  · rw [if_neg hij] at hx hx'
    exact h i x x' hx hx'

theorem valR_get {lo δ n : Nat} (q : List Nat) {v v' : MVal} (h : ValR lo δ n v v') :
    ValR lo δ n (v.get q) (v'.get q) := by
  induction q generalizing v v' with
  | nil => exact h
  | cons i q ih =>
    cases h with
    | struct hl hh => exact ih (listR_get hl hh i)
    | arr hl hh => exact ih (listR_get hl hh i)
    | maybe hv => exact ih hv
    | text b => exact .text b
    | link l => exact .link l
    | slice h1 h2 => exact .slice h1 h2
    | empty => exact .empty
    | nil => exact .nil
    | ref h => exact .ref h

theorem valR_set {lo δ n : Nat} (q : List Nat) {v v' x x' : MVal} (h : ValR lo δ n v v') (hx : ValR lo δ n x x') :
    ValR lo δ n (v.set q x) (v'.set q x') := by
  induction q generalizing v v' with
  | nil => exact hx
  | cons i q ih =>
    cases h with
    | struct hl hh =>
      exact .struct (by simpa using hl) (listR_set hh (ih (listR_get hl hh i)))
    | arr hl hh =>
      exact .arr (by simpa using hl) (listR_set hh (ih (listR_get hl hh i)))
    | maybe hv => exact .maybe (ih hv)
    | text b => exact .text b
    | link l => exact .link l
    | slice h1 h2 => exact .slice h1 h2
    | empty => exact .empty
    | nil => exact .nil
    | ref h => exact .ref h

/-- What happens to both memories. -/
structure Step (lo δ : Nat) (μ μ' ν ν' : Mem) : Prop where
  mem : MemR lo δ ν ν'
  mono : μ.next ≤ ν.next
  keep : Keeps lo μ ν
  keep' : Keeps (lo + δ) μ' ν'

theorem step_refl {lo δ : Nat} {μ μ' : Mem} (h : MemR lo δ μ μ') : Step lo δ μ μ' μ μ' :=
  ⟨h, Nat.le_refl _, keeps_refl h.low, keeps_refl (by rw [h.next]; exact Nat.add_le_add_right h.low δ)⟩

theorem step_trans {lo δ : Nat} {μ μ' ν ν' ρ ρ' : Mem} (h : Step lo δ μ μ' ν ν') (h' : Step lo δ ν ν' ρ ρ') :
    Step lo δ μ μ' ρ ρ' :=
  ⟨h'.mem, Nat.le_trans h.mono h'.mono, keeps_trans h.keep h'.keep, keeps_trans h.keep' h'.keep'⟩

theorem step_write {lo δ : Nat} {μ μ' : Mem} {p p' : Ptr} {x x' : MVal} (h : MemR lo δ μ μ')
    (hp : PtrR lo δ μ.next p p') (hx : ValR lo δ μ.next x x') : Step lo δ μ μ' (μ.write p x) (μ'.write p' x') := by
  obtain ⟨h1, h2, rfl⟩ := hp
  have hn' : lo + δ ≤ μ'.next := by rw [h.next]; exact Nat.add_le_add_right h.low δ
  refine ⟨⟨h.low, h.next, fun r hr hr' => ?_⟩, Nat.le_refl _, keeps_write _ h.low h1,
    keeps_write _ hn' (Nat.add_le_add_right h1 δ)⟩
  show ValR lo δ μ.next (if r = p.1 then (μ.at' r).set p.2 x else μ.at' r)
    (if r + δ = p.1 + δ then (μ'.at' (r + δ)).set p.2 x' else μ'.at' (r + δ))
  by_cases he : r = p.1
  · rw [if_pos he, if_pos (by omega)]
    exact valR_set _ (h.at' r hr hr') hx
  · rw [if_neg he, if_neg (by omega)]
    exact h.at' r hr hr'

theorem step_alloc {lo δ : Nat} {μ μ' : Mem} {x x' : MVal} (h : MemR lo δ μ μ')
    (hx : ValR lo δ μ.next x x') : Step lo δ μ μ' (μ.alloc x) (μ'.alloc x') := by
  have hn' : lo + δ ≤ μ'.next := by rw [h.next]; exact Nat.add_le_add_right h.low δ
  refine ⟨⟨Nat.le_succ_of_le h.low, ?_, fun r hr hr' => ?_⟩, Nat.le_succ _, keeps_alloc _ h.low, keeps_alloc _ hn'⟩
  · show μ'.next + 1 = μ.next + 1 + δ
    rw [h.next]; omega
  · replace hr' : r < μ.next + 1 := hr'
    show ValR lo δ (μ.next + 1) (if r = μ.next then x else μ.at' r) (if r + δ = μ'.next then x' else μ'.at' (r + δ))
    by_cases he : r = μ.next
    · rw [if_pos he, if_pos (by rw [h.next]; omega)]
      exact valR_mono (Nat.le_succ _) hx
    · rw [if_neg he, if_neg (by rw [h.next]; omega)]
      exact valR_mono (Nat.le_succ _) (h.at' r hr (by omega))

theorem read_r {lo δ : Nat} {μ μ' : Mem} {p p' : Ptr} (h : MemR lo δ μ μ') (hp : PtrR lo δ μ.next p p') :
    ValR lo δ μ.next (μ.read p) (μ'.read p') := by
  obtain ⟨h1, h2, rfl⟩ := hp
  exact valR_get _ (h.at' _ h1 h2)

theorem ptrR_path {lo δ n : Nat} {p p' : Ptr} (h : PtrR lo δ n p p') (q : List Nat) :
    PtrR lo δ n (p.1, p.2 ++ q) (p'.1, p'.2 ++ q) := by
  obtain ⟨h1, h2, rfl⟩ := h
  exact ⟨h1, h2, rfl⟩

theorem mark_r {lo δ : Nat} {μ μ' : Mem} {p p' : Ptr} (h : MemR lo δ μ μ') (hp : PtrR lo δ μ.next p p') :
    μ'.mark p' = μ.mark p := by
  have hr := read_r h hp
  unfold Mem.mark
  generalize μ.read p = v at hr ⊢
  generalize μ'.read p' = v' at hr ⊢
  cases hr <;> rfl

theorem step_setMark {lo δ : Nat} {μ μ' : Mem} {p p' : Ptr} (m : Maybe) (h : MemR lo δ μ μ')
    (hp : PtrR lo δ μ.next p p') : Step lo δ μ μ' (μ.setMark p m) (μ'.setMark p' m) := by
  have hr := read_r h hp
  unfold Mem.setMark
  generalize hv : μ.read p = v at hr ⊢
  generalize hv' : μ'.read p' = v' at hr ⊢
  cases hr with
  | maybe hw => exact step_write h hp (.maybe hw)
  | _ => exact step_refl h

/-! ## Values that are new -/

theorem valR_zero {lo δ n : Nat} (k : Nat) (t : T) : ValR lo δ n (zeroM k t) (zeroM k t) := by
  induction k generalizing t with
  | zero =>
    unfold zeroM
    cases t.shape with
    | text => exact .text _
    | link => exact .link _
    | list e => exact .empty
    | struct fs => exact .struct rfl (by intro i x x' h; cases h)
  | succ k ih =>
    unfold zeroM
    cases t.shape with
    | text => exact .text _
    | link => exact .link _
    | list e => exact .empty
    | struct fs =>
      refine .struct rfl fun i x x' h h' => ?_
      rw [h] at h'
      cases h'
      rw [List.getElem?_map] at h
      cases hf : fs[i]? with
      | none => rw [hf] at h; cases h
      | some fd =>
        rw [hf] at h
        cases h
        dsimp only
        split
        · exact ih _
        · refine .maybe ?_
          split
          · exact .nil
          · exact ih _

/-- Two ways to put a thing into memory. -/
def Stores (lo δ : Nat) (μ μ' : Mem) (r r' : Mem × MVal) : Prop :=
  Step lo δ μ μ' r.1 r'.1 ∧ ValR lo δ r.1.next r.2 r'.2

theorem storeAll_r {α : Type} {lo δ : Nat} {st : α → Mem → Mem × MVal}
    (hs : ∀ a μ μ', MemR lo δ μ μ' → Stores lo δ μ μ' (st a μ) (st a μ')) (l : List α) {μ μ' : Mem}
    (h : MemR lo δ μ μ') :
    Step lo δ μ μ' (storeAll st l μ).1 (storeAll st l μ').1 ∧
      (storeAll st l μ).2.length = (storeAll st l μ').2.length ∧
      ∀ (i : Nat) (x x' : MVal), (storeAll st l μ).2[i]? = some x → (storeAll st l μ').2[i]? = some x' →
        ValR lo δ (storeAll st l μ).1.next x x' := by
  induction l generalizing μ μ' with
  | nil => exact ⟨step_refl h, rfl, by intro i x x' h; cases h⟩
  | cons a r ih =>
    obtain ⟨h1, h2⟩ := hs a μ μ' h
    obtain ⟨h3, h4, h5⟩ := ih h1.mem
    refine ⟨step_trans h1 h3, ?_, fun i x x' hx hx' => ?_⟩
    · show (_ :: _).length = (_ :: _).length
      rw [List.length_cons, List.length_cons, h4]
    · cases i with
      | zero =>
        cases hx
        cases hx'
        exact valR_mono h3.mono h2
      | succ i => exact h5 i x x' hx hx'

theorem store_r {lo δ : Nat} (k : Nat) (t : T) (v : Val) {μ μ' : Mem} (h : MemR lo δ μ μ') :
    Stores lo δ μ μ' (store k t v μ) (store k t v μ') := by
  induction k generalizing t v μ μ' with
  | zero =>
    unfold store
    split
    · exact ⟨step_refl h, .text _⟩
    · exact ⟨step_refl h, .link _⟩
    · rename_i hh _; cases hh
    · rename_i hh _; cases hh
    · exact ⟨step_refl h, valR_zero _ _⟩
  | succ k ih =>
    unfold store
    split
    · exact ⟨step_refl h, .text _⟩
    · exact ⟨step_refl h, .link _⟩
    · rename_i k' e vs hh _
      cases hh
      obtain ⟨h1, h2, h3⟩ := storeAll_r (st := store k e) (fun a μ μ' h => ih e a h) vs h
      refine ⟨step_trans h1 (step_alloc h1.mem (.arr h2 h3)), ?_⟩
      show ValR lo δ _ (.slice _ _ _) (.slice (storeAll (store k e) vs μ').1.next _ _)
      rw [h1.mem.next]
      exact .slice h1.mem.low (Nat.lt_succ_self _)
    · rename_i k' fs l hh _
      cases hh
      obtain ⟨h1, h2, h3⟩ := storeAll_r (st := storeField (store k) (zeroM k)) (fun x μ μ' h => by
        unfold storeField
        split
        · split
          · exact ih _ _ h
          · exact ⟨step_refl h, valR_zero _ _⟩
        · split
          · split
            · rename_i w _
              obtain ⟨h1, h2⟩ := ih x.1.ty w h
              refine ⟨step_trans h1 (step_alloc h1.mem h2), .maybe (.ref ⟨h1.mem.low, Nat.lt_succ_self _, ?_⟩)⟩
              show ((store k x.1.ty w μ').1.next, _) = _
              rw [h1.mem.next]
            · exact ⟨step_refl h, .maybe .nil⟩
          · split
            · rename_i w _
              obtain ⟨h1, h2⟩ := ih x.1.ty w h
              exact ⟨h1, .maybe h2⟩
            · exact ⟨step_refl h, .maybe (valR_zero _ _)⟩) (fs.zip l) h
      exact ⟨h1, .struct h2 h3⟩
    · exact ⟨step_refl h, valR_zero _ _⟩

/-! ## What a node shows -/

theorem listR_map {lo δ n : Nat} {fs fs' : List MVal} {β : Type} {φ φ' : MVal → β} (hl : fs.length = fs'.length)
    (h : ∀ (i : Nat) (x x' : MVal), fs[i]? = some x → fs'[i]? = some x' → ValR lo δ n x x')
    (hf : ∀ x x', ValR lo δ n x x' → φ x = φ' x') : fs.map φ = fs'.map φ' := by
  induction fs generalizing fs' with
  | nil => cases fs' with | nil => rfl | cons y r => cases hl
  | cons x r ih => cases fs' with
    | nil => cases hl
    | cons y r' =>
      rw [List.map_cons, List.map_cons, hf x y (h 0 x y rfl rfl),
        ih (Nat.succ.inj hl) fun i a b ha hb => h (i + 1) a b ha hb]

theorem listR_zip {lo δ n : Nat} {fs fs' : List MVal} {α β : Type} {φ φ' : α × MVal → β} (l : List α)
    (hl : fs.length = fs'.length)
    (h : ∀ (i : Nat) (x x' : MVal), fs[i]? = some x → fs'[i]? = some x' → ValR lo δ n x x')
    (hf : ∀ a x x', ValR lo δ n x x' → φ (a, x) = φ' (a, x')) : (l.zip fs).map φ = (l.zip fs').map φ' := by
  induction l generalizing fs fs' with
  | nil => rfl
  | cons a l ih =>
    cases fs with
    | nil => cases fs' with | nil => rfl | cons y r => cases hl
    | cons x r => cases fs' with
      | nil => cases hl
      | cons y r' =>
        rw [List.zip_cons_cons, List.zip_cons_cons, List.map_cons, List.map_cons, hf a x y (h 0 x y rfl rfl),
          ih (Nat.succ.inj hl) fun i a b ha hb => h (i + 1) a b ha hb]

theorem listR_take {lo δ n : Nat} {fs fs' : List MVal} (k : Nat)
    (h : ∀ (i : Nat) (x x' : MVal), fs[i]? = some x → fs'[i]? = some x' → ValR lo δ n x x') :
    ∀ (i : Nat) (x x' : MVal), (fs.take k)[i]? = some x → (fs'.take k)[i]? = some x' → ValR lo δ n x x' := by
  intro i x x' hx hx'
  rw [List.getElem?_take] at hx hx'
  split at hx
  · rw [if_pos (by assumption)] at hx'
    exact h i x x' hx hx'
  · cases hx

theorem load_r {lo δ n : Nat} {μ μ' : Mem}
    (h : ∀ r, lo ≤ r → r < n → ValR lo δ n (μ.at' r) (μ'.at' (r + δ))) (k : Nat) (t : T) {v v' : MVal}
    (hv : ValR lo δ n v v') : load k t μ' v' = load k t μ v := by
  induction k generalizing t v v' with
  | zero =>
    unfold load
    cases hs : t.shape <;> cases hv <;> rfl
  | succ k ih =>
    unfold load
    cases hs : t.shape with
    | text => cases hv <;> rfl
    | link => cases hv <;> rfl
    | list e =>
      cases hv with
      | slice h1 h2 =>
        have ha := h _ h1 h2
        dsimp only
        generalize μ.at' _ = a at ha ⊢
        generalize μ'.at' _ = a' at ha ⊢
        cases ha with
        | arr hl hh =>
          dsimp only
          congr 1
          refine (listR_map (by simp [hl]) (listR_take _ hh) fun x x' hx => ?_).symm
          exact (ih e hx).symm
        | _ => rfl
      | empty =>
        dsimp only
        split <;> split <;> simp
      | _ => rfl
    | struct fs =>
      cases hv with
      | struct hl hh =>
        dsimp only
        congr 1
        refine (listR_zip fs hl hh fun fd x x' hx => ?_).symm
        dsimp only
        split
        · rw [ih _ hx]
        · cases hx with
          | @maybe m w w' hw =>
            cases m with
            | value =>
              cases hw with
              | ref hp =>
                dsimp only
                obtain ⟨h1, h2, rfl⟩ := hp
                exact congrArg some (ih _ (valR_get _ (h _ h1 h2))).symm
              | text b => dsimp only; rw [ih _ (.text b)]
              | link b => dsimp only; rw [ih _ (.link b)]
              | slice h1 h2 => dsimp only; rw [ih _ (.slice h1 h2)]
              | empty => dsimp only; rw [ih _ .empty]
              | struct h1 h2 => dsimp only; rw [ih _ (.struct h1 h2)]
              | maybe h1 => dsimp only; rw [ih _ (.maybe h1)]
              | nil => dsimp only; rw [ih _ .nil]
              | arr h1 h2 => dsimp only; rw [ih _ (.arr h1 h2)]
            | _ => rfl
          | _ => rfl
      | _ => rfl

/-! ## Assemblers -/

/-- Places of marks that differ only in where they are. -/
def MarkR (lo δ n : Nat) (m m' : MarkAt) : Prop :=
  match m, m' with
  | .mem p, .mem p' => PtrR lo δ n p p'
  | .mem _, _ => False
  | _, .mem _ => False
  | _, _ => True

def PlaceR (lo δ n : Nat) (w w' : Option Ptr) : Prop :=
  match w, w' with
  | none, none => True
  | some p, some p' => PtrR lo δ n p p'
  | _, _ => False

/-- Assemblers that differ only in where they write, and in that the client may have
more handles to the second. -/
inductive ObjR (lo δ n : Nat) : Obj → Obj → Prop where
  | mk {t : T} {w w' : Option Ptr} {m m' : MarkAt} {g g' b b' : Bool} {ph : MaState} {s f : Nat} {cm : Maybe}
      {kids kids' : List Obj} :
      PlaceR lo δ n w w' → MarkR lo δ n m m' → (g = true ∨ b = true → m.isNil = m'.isNil) →
      (g = true → g' = true) → (b = true → b' = true) → kids.length = kids'.length →
      (∀ (i : Nat) (k k' : Obj), kids[i]? = some k → kids'[i]? = some k' → ObjR lo δ n k k') →
      ObjR lo δ n (.mk t w m g b ph s f cm kids) (.mk t w' m' g' b' ph s f cm kids')

theorem markR_mono {lo δ n n' : Nat} (hn : n ≤ n') {m m' : MarkAt} (h : MarkR lo δ n m m') : MarkR lo δ n' m m' := by
  unfold MarkR at h ⊢
  split at h
  · exact ⟨h.1, Nat.lt_of_lt_of_le h.2.1 hn, h.2.2⟩
  all_goals exact h

theorem placeR_mono {lo δ n n' : Nat} (hn : n ≤ n') {w w' : Option Ptr} (h : PlaceR lo δ n w w') :
    PlaceR lo δ n' w w' := by
  cases w <;> cases w' <;> first | exact h | exact ⟨h.1, Nat.lt_of_lt_of_le h.2.1 hn, h.2.2⟩

theorem objR_mono {lo δ n n' : Nat} (hn : n ≤ n') {o o' : Obj} (h : ObjR lo δ n o o') : ObjR lo δ n' o o' := by
  induction h with
  | mk h1 h2 h3 h4 h5 h6 _ ih => exact .mk (placeR_mono hn h1) (markR_mono hn h2) h3 h4 h5 h6 ih

theorem objR_kid {lo δ n : Nat} {kids kids' : List Obj} (hl : kids.length = kids'.length) {i : Nat} {k : Obj}
    (hk : kids[i]? = some k) : ∃ k', kids'[i]? = some k' := by
  have : i < kids.length := by
    by_cases h : i < kids.length
    · exact h
    · rw [List.getElem?_eq_none (by omega)] at hk; cases hk
  exact ⟨_, List.getElem?_eq_getElem (by omega)⟩

theorem kidsR_set {lo δ n : Nat} {kids kids' : List Obj}
    (h : ∀ (i : Nat) (x x' : Obj), kids[i]? = some x → kids'[i]? = some x' → ObjR lo δ n x x') {j : Nat} {y y' : Obj}
    (hy : ObjR lo δ n y y') :
    ∀ (i : Nat) (x x' : Obj), (kids.set j y)[i]? = some x → (kids'.set j y')[i]? = some x' → ObjR lo δ n x x' := by
  intro i x x' hx hx'
  rw [List.getElem?_set] at hx hx'
  by_cases hij : j = i
  · rw [if_pos hij] at hx hx'
    split at hx
    · split at hx'
      · cases hx; cases hx'; exact hy
      · cases hx'
    · cases hx
  · rw [if_neg hij] at hx hx'
    exact h i x x' hx hx'

theorem kidsR_modify {lo δ n : Nat} {kids kids' : List Obj} (hl : kids.length = kids'.length)
    (h : ∀ (i : Nat) (x x' : Obj), kids[i]? = some x → kids'[i]? = some x' → ObjR lo δ n x x') (j : Nat)
    {φ φ' : Obj → Obj} (hy : ∀ k k', ObjR lo δ n k k' → ObjR lo δ n (φ k) (φ' k')) :
    (modifyKid φ j kids).length = (modifyKid φ' j kids').length ∧
    ∀ (i : Nat) (x x' : Obj), (modifyKid φ j kids)[i]? = some x → (modifyKid φ' j kids')[i]? = some x' →
      ObjR lo δ n x x' := by
  refine ⟨by rw [modifyKid_length, modifyKid_length, hl], ?_⟩
  unfold modifyKid
  cases hk : kids[j]? with
  | none =>
    have : kids'[j]? = none := by
      rw [List.getElem?_eq_none_iff] at hk ⊢
      omega
    rw [this]
    exact h
  | some k =>
    obtain ⟨k', hk'⟩ := objR_kid (lo := lo) (δ := δ) (n := n) hl hk
    rw [hk']
    exact kidsR_set h (hy k k' (h j k k' hk hk'))

theorem objR_lend {lo δ n : Nat} {w w' : Option Ptr} {m m' : MarkAt} (hw : PlaceR lo δ n w w')
    (hm : MarkR lo δ n m m') (hb : m.isNil = m'.isNil) (k k' : Obj) (h : ObjR lo δ n k k') :
    ObjR lo δ n (k.lend w m) (k'.lend w' m') := by
  cases h with
  | mk _ _ _ _ h5 h6 h7 => exact .mk hw hm (fun _ => hb) (fun _ => rfl) h5 h6 h7

theorem objR_park {lo δ n : Nat} (k k' : Obj) (h : ObjR lo δ n k k') : ObjR lo δ n k.park k'.park := by
  cases h with
  | mk _ h2 h3 h4 h5 h6 h7 => exact .mk trivial h2 h3 h4 h5 h6 h7

theorem resetAll_length (l : List Obj) : (Obj.resetAll l).length = l.length := by
  induction l with
  | nil => rfl
  | cons a r ih => simp [Obj.resetAll, ih]

theorem objR_reset {lo δ n : Nat} {k k' : Obj} (h : ObjR lo δ n k k') : ObjR lo δ n k.reset k'.reset := by
  induction h with
  | @mk t w w' m m' g g' b b' ph s f cm kids kids' h1 h2 h3 h4 h5 h6 h7 ih =>
    have h6' : (Obj.resetAll kids).length = (Obj.resetAll kids').length := by
      rw [resetAll_length, resetAll_length, h6]
    have h7' : ∀ (i : Nat) (k k' : Obj), (Obj.resetAll kids)[i]? = some k → (Obj.resetAll kids')[i]? = some k' →
        ObjR lo δ n k k' := by
      intro i k k' hk hk'
      rw [resetAll_get] at hk hk'
      cases hk0 : kids[i]? with
      | none => rw [hk0] at hk; cases hk
      | some k0 =>
        cases hk1 : kids'[i]? with
        | none => rw [hk1] at hk'; cases hk'
        | some k1 =>
          rw [hk0] at hk
          rw [hk1] at hk'
          cases hk
          cases hk'
          exact ih i k0 k1 hk0 hk1
    unfold Obj.reset
    cases t.shape with
    | text => exact .mk h1 h2 h3 h4 h5 h6 h7
    | link => exact .mk h1 h2 h3 h4 h5 h6 h7
    | list e => exact .mk h1 h2 h3 h4 h5 h6' h7'
    | struct fs => exact .mk h1 h2 h3 h4 h5 h6' h7'

/-- Builders that differ only in where things are. -/
structure StR (lo δ : Nat) (a a' : St) : Prop where
  mem : MemR lo δ a.mem a'.mem
  mark : a'.mark = a.mark
  obj : ObjR lo δ a.mem.next a.obj a'.obj

/-- What one call does to both. -/
def Goes (lo δ : Nat) (a a' b b' : St) : Prop := StR lo δ b b' ∧ Step lo δ a.mem a'.mem b.mem b'.mem

/-- Both calls have the same outcome, unless the client cannot make the first. -/
def OutR (lo δ : Nat) (a a' : St) : Out → Out → Prop
  | .ok b, .ok b' => Goes lo δ a a' b b'
  | .err e b, .err e' b' => e = e' ∧ Goes lo δ a a' b b'
  | .panic, .panic => True
  | .noHandle, _ => True
  | _, _ => False

theorem goes_refl {lo δ : Nat} {a a' : St} (h : StR lo δ a a') : Goes lo δ a a' a a' := ⟨h, step_refl h.mem⟩

theorem goes_trans {lo δ : Nat} {a a' b b' c c' : St} (h : Goes lo δ a a' b b') (h' : Goes lo δ b b' c c') :
    Goes lo δ a a' c c' := ⟨h'.1, step_trans h.2 h'.2⟩

/-- A call whose effect on the memories is known. -/
theorem goes_mk {lo δ : Nat} {μ μ' ν ν' : Mem} {mk mk' mk1 : Maybe} {o o' o1 o1' : Obj} (h : Step lo δ μ μ' ν ν')
    (ho : ObjR lo δ ν.next o1 o1') : Goes lo δ ⟨μ, mk, o⟩ ⟨μ', mk', o'⟩ ⟨ν, mk1, o1⟩ ⟨ν', mk1, o1'⟩ :=
  ⟨⟨h.mem, rfl, ho⟩, h⟩

theorem beginMap_r {lo δ : Nat} {a a' : St} (h : StR lo δ a a') (hg : a.obj.given = true) :
    OutR lo δ a a' (beginMap a) (beginMap a') := by
  obtain ⟨μ, mk, o⟩ := a
  obtain ⟨μ', mk', o'⟩ := a'
  obtain ⟨hm, hk, ho⟩ := h
  dsimp only at hm hk ho
  subst hk
  cases ho with
  | @mk t w w' m m' g g' b b' ph s f cm kids kids' h1 h2 h3 h4 h5 h6 h7 =>
    simp only [beginMap]
    cases hs : t.shape with
    | struct fs =>
      dsimp only
      by_cases ha : mk' = .absent
      · rw [if_pos ha, if_pos ha]
        cases w with
        | none => cases w' with
          | none =>
            have hst := step_alloc hm (valR_zero (rank t) t)
            refine goes_mk hst (.mk ?_ (markR_mono hst.mono h2) (fun _ => h3 (.inl hg)) h4 (fun _ => rfl) h6
              fun i k k' hk hk' => objR_mono hst.mono (h7 i k k' hk hk'))
            exact ⟨hm.low, Nat.lt_succ_self _, by rw [hm.next]⟩
          | some p => exact h1.elim
        | some p => cases w' with
          | none => exact h1.elim
          | some p' =>
            exact goes_mk (step_refl hm) (.mk h1 h2 (fun _ => h3 (.inl hg)) h4 (fun _ => rfl) h6 h7)
      · rw [if_neg ha, if_neg ha]
        trivial
    | text => exact ⟨rfl, goes_mk (step_refl hm) (.mk h1 h2 h3 h4 h5 h6 h7)⟩
    | link => exact ⟨rfl, goes_mk (step_refl hm) (.mk h1 h2 h3 h4 h5 h6 h7)⟩
    | list e => exact ⟨rfl, goes_mk (step_refl hm) (.mk h1 h2 h3 h4 h5 h6 h7)⟩

theorem beginList_r {lo δ : Nat} {a a' : St} (hint : Int) (h : StR lo δ a a') (hg : a.obj.given = true) :
    OutR lo δ a a' (beginList hint a) (beginList hint a') := by
  obtain ⟨μ, mk, o⟩ := a
  obtain ⟨μ', mk', o'⟩ := a'
  obtain ⟨hm, hk, ho⟩ := h
  dsimp only at hm hk ho
  subst hk
  cases ho with
  | @mk t w w' m m' g g' b b' ph s f cm kids kids' h1 h2 h3 h4 h5 h6 h7 =>
    simp only [beginList]
    cases hs : t.shape with
    | list e =>
      dsimp only
      by_cases ha : mk' = .absent
      · rw [if_pos ha, if_pos ha]
        by_cases hh : 0 < hint
        · rw [if_pos hh, if_pos hh]
          cases w with
          | none => cases w' with
            | none => trivial
            | some p => exact h1.elim
          | some p => cases w' with
            | none => exact h1.elim
            | some p' =>
              have hst := step_alloc hm (x := .arr []) (x' := .arr []) (.arr rfl (by intro i x x' h; cases h))
              have hst2 := step_trans hst (step_write hst.mem (p := p) (p' := p') (placeR_mono hst.mono h1)
                (x := .slice μ.next 0 hint.toNat) (x' := .slice μ'.next 0 hint.toNat)
                (by rw [hm.next]; exact .slice hm.low (Nat.lt_succ_self _)))
              exact goes_mk hst2 (.mk (placeR_mono hst2.mono h1) (markR_mono hst2.mono h2) (fun _ => h3 (.inl hg)) h4
                (fun _ => rfl) h6 fun i k k' hk hk' => objR_mono hst2.mono (h7 i k k' hk hk'))
        · rw [if_neg hh, if_neg hh]
          exact goes_mk (step_refl hm) (.mk h1 h2 (fun _ => h3 (.inl hg)) h4 (fun _ => rfl) h6 h7)
      · rw [if_neg ha, if_neg ha]
        trivial
    | text => exact ⟨rfl, goes_mk (step_refl hm) (.mk h1 h2 h3 h4 h5 h6 h7)⟩
    | link => exact ⟨rfl, goes_mk (step_refl hm) (.mk h1 h2 h3 h4 h5 h6 h7)⟩
    | struct fs => exact ⟨rfl, goes_mk (step_refl hm) (.mk h1 h2 h3 h4 h5 h6 h7)⟩

theorem assignNull_r {lo δ : Nat} {a a' : St} (h : StR lo δ a a') :
    OutR lo δ a a' (assignNull a) (assignNull a') := by
  unfold assignNull
  rw [h.mark]
  split
  · exact ⟨rfl, goes_refl h⟩
  · trivial

theorem assignString_r {lo δ : Nat} {a a' : St} (x : Bytes) (h : StR lo δ a a') :
    OutR lo δ a a' (assignString x a) (assignString x a') := by
  obtain ⟨μ, mk, o⟩ := a
  obtain ⟨μ', mk', o'⟩ := a'
  obtain ⟨hm, hk, ho⟩ := h
  dsimp only at hm hk ho
  subst hk
  cases ho with
  | @mk t w w' m m' g g' b b' ph s f cm kids kids' h1 h2 h3 h4 h5 h6 h7 =>
    simp only [assignString]
    cases hs : t.shape with
    | text =>
      dsimp only
      by_cases ha : mk' = .value
      · rw [if_pos ha, if_pos ha]
        trivial
      · rw [if_neg ha, if_neg ha]
        cases w with
        | none => cases w' with
          | none => trivial
          | some p => exact h1.elim
        | some p => cases w' with
          | none => exact h1.elim
          | some p' => exact goes_mk (step_write hm h1 (.text x)) (.mk h1 h2 h3 h4 h5 h6 h7)
    | list e => exact ⟨rfl, goes_mk (step_refl hm) (.mk h1 h2 h3 h4 h5 h6 h7)⟩
    | link => exact ⟨rfl, goes_mk (step_refl hm) (.mk h1 h2 h3 h4 h5 h6 h7)⟩
    | struct fs => exact ⟨rfl, goes_mk (step_refl hm) (.mk h1 h2 h3 h4 h5 h6 h7)⟩

theorem assignLink_r {lo δ : Nat} {a a' : St} (x : Link) (h : StR lo δ a a') :
    OutR lo δ a a' (assignLink x a) (assignLink x a') := by
  obtain ⟨μ, mk, o⟩ := a
  obtain ⟨μ', mk', o'⟩ := a'
  obtain ⟨hm, hk, ho⟩ := h
  dsimp only at hm hk ho
  subst hk
  cases ho with
  | @mk t w w' m m' g g' b b' ph s f cm kids kids' h1 h2 h3 h4 h5 h6 h7 =>
    simp only [assignLink]
    cases hs : t.shape with
    | link =>
      dsimp only
      by_cases ha : mk' = .value
      · rw [if_pos ha, if_pos ha]
        trivial
      · rw [if_neg ha, if_neg ha]
        cases w with
        | none => cases w' with
          | none => trivial
          | some p => exact h1.elim
        | some p => cases w' with
          | none => exact h1.elim
          | some p' => exact goes_mk (step_write hm h1 (.link x)) (.mk h1 h2 h3 h4 h5 h6 h7)
    | list e => exact ⟨rfl, goes_mk (step_refl hm) (.mk h1 h2 h3 h4 h5 h6 h7)⟩
    | text => exact ⟨rfl, goes_mk (step_refl hm) (.mk h1 h2 h3 h4 h5 h6 h7)⟩
    | struct fs => exact ⟨rfl, goes_mk (step_refl hm) (.mk h1 h2 h3 h4 h5 h6 h7)⟩

theorem assignSelf_r {lo δ : Nat} {a a' : St} (u : T) (v : Val) (h : StR lo δ a a') :
    OutR lo δ a a' (assignSelf u v a) (assignSelf u v a') := by
  obtain ⟨μ, mk, o⟩ := a
  obtain ⟨μ', mk', o'⟩ := a'
  obtain ⟨hm, hk, ho⟩ := h
  dsimp only at hm hk ho
  subst hk
  cases ho with
  | @mk t w w' m m' g g' b b' ph s f cm kids kids' h1 h2 h3 h4 h5 h6 h7 =>
    obtain ⟨hst, hv⟩ := store_r (rank t) t v hm
    have hgo : ∀ p p', PtrR lo δ μ.next p p' → Goes lo δ ⟨μ, mk', .mk t (some p) m g b ph s f cm kids⟩
        ⟨μ', mk', .mk t (some p') m' g' b' ph s f cm kids'⟩
        ⟨(store (rank t) t v μ).1.write p (store (rank t) t v μ).2, .value, .mk t (some p) m g b ph s f cm kids⟩
        ⟨(store (rank t) t v μ').1.write p' (store (rank t) t v μ').2, .value,
          .mk t (some p') m' g' b' ph s f cm kids'⟩ := by
      intro p p' hp
      have hst2 := step_trans hst (step_write hst.mem (placeR_mono (w := some p) (w' := some p') hst.mono hp) hv)
      exact goes_mk hst2 (.mk (placeR_mono (w := some p) (w' := some p') hst2.mono hp) (markR_mono hst2.mono h2) h3 h4 h5 h6
        fun i k k' hk hk' => objR_mono hst2.mono (h7 i k k' hk hk'))
    simp only [assignSelf]
    by_cases hu : u ≠ t
    · rw [if_pos hu, if_pos hu]
      trivial
    rw [if_neg hu, if_neg hu]
    cases hs : t.shape with
    | struct fs =>
      dsimp only
      by_cases ha : mk' = .absent
      · rw [if_pos ha, if_pos ha]
        cases w with
        | none => cases w' with
          | none =>
            have hst2 := step_trans hst (step_alloc hst.mem hv)
            refine goes_mk hst2 (.mk ?_ (markR_mono hst2.mono h2) h3 h4 h5 h6
              fun i k k' hk hk' => objR_mono hst2.mono (h7 i k k' hk hk'))
            exact ⟨hst.mem.low, Nat.lt_succ_self _, by rw [hst.mem.next]⟩
          | some p => exact h1.elim
        | some p => cases w' with
          | none => exact h1.elim
          | some p' => exact hgo p p' h1
      · rw [if_neg ha, if_neg ha]
        trivial
    | list e =>
      dsimp only
      by_cases ha : mk' = .absent
      · rw [if_pos ha, if_pos ha]
        cases w with
        | none => cases w' with
          | none => trivial
          | some p => exact h1.elim
        | some p => cases w' with
          | none => exact h1.elim
          | some p' => exact hgo p p' h1
      · rw [if_neg ha, if_neg ha]
        trivial
    | text =>
      dsimp only
      by_cases ha : mk' = .value
      · rw [if_pos ha, if_pos ha]
        trivial
      · rw [if_neg ha, if_neg ha]
        cases w with
        | none => cases w' with
          | none => trivial
          | some p => exact h1.elim
        | some p => cases w' with
          | none => exact h1.elim
          | some p' => exact hgo p p' h1
    | link =>
      dsimp only
      by_cases ha : mk' = .value
      · rw [if_pos ha, if_pos ha]
        trivial
      · rw [if_neg ha, if_neg ha]
        cases w with
        | none => cases w' with
          | none => trivial
          | some p => exact h1.elim
        | some p => cases w' with
          | none => exact h1.elim
          | some p' => exact hgo p p' h1

/-- What a check of the state leaves of both. -/
def OptR (lo δ : Nat) (a a' : St) : Option St → Option St → Prop
  | none, none => True
  | some b, some b' => Goes lo δ a a' b b'
  | _, _ => False

theorem bind_w {lo δ n : Nat} {kids kids' : List Obj} (hl : kids.length = kids'.length)
    (h : ∀ (i : Nat) (x x' : Obj), kids[i]? = some x → kids'[i]? = some x' → ObjR lo δ n x x') (j : Nat) :
    PlaceR lo δ n ((kids[j]?).bind Obj.w) ((kids'[j]?).bind Obj.w) := by
  cases hk : kids[j]? with
  | none =>
    have : kids'[j]? = none := by
      rw [List.getElem?_eq_none_iff] at hk ⊢
      omega
    rw [this]
    trivial
  | some k =>
    obtain ⟨k', hk'⟩ := objR_kid (lo := lo) (δ := δ) (n := n) hl hk
    rw [hk']
    cases h j k k' hk hk' with
    | mk h1 => exact h1

theorem tidy_r {lo δ : Nat} {a a' : St} (repr : Bool) (h : StR lo δ a a') :
    OptR lo δ a a' (tidy repr a) (tidy repr a') := by
  obtain ⟨μ, mk, o⟩ := a
  obtain ⟨μ', mk', o'⟩ := a'
  obtain ⟨hm, hk, ho⟩ := h
  dsimp only at hm hk ho
  subst hk
  cases ho with
  | @mk t w w' m m' g g' b b' ph s f cm kids kids' h1 h2 h3 h4 h5 h6 h7 =>
    simp only [tidy]
    cases hs : t.shape with
    | text => trivial
    | link => trivial
    | struct fs =>
      dsimp only
      cases hf : fs[f]? with
      | none => trivial
      | some fd =>
        dsimp only
        by_cases hr : fd.required = true
        · rw [if_pos hr, if_pos hr]
          by_cases hc : cm = .value
          · rw [if_pos hc, if_pos hc]
            cases repr with
            | true => exact goes_mk (step_refl hm) (.mk h1 h2 h3 h4 h5 h6 h7)
            | false =>
              obtain ⟨h8, h9⟩ := kidsR_modify h6 h7 f (φ := Obj.park) (φ' := Obj.park) objR_park
              exact goes_mk (step_refl hm) (.mk h1 h2 h3 h4 h5 h8 h9)
          · rw [if_neg hc, if_neg hc]
            trivial
        · rw [if_neg hr, if_neg hr]
          cases w with
          | none => cases w' with
            | none => trivial
            | some p => exact h1.elim
          | some p => cases w' with
            | none => exact h1.elim
            | some p' =>
              replace h1 : PtrR lo δ μ.next p p' := h1
              dsimp only
              rw [mark_r hm (ptrR_path h1 [f])]
              split
              · cases hb : FieldT.byRef fd with
                | false => exact goes_mk (step_refl hm) (.mk h1 h2 h3 h4 h5 h6 h7)
                | true =>
                  have hv : ValR lo δ μ.next (.ref ((kids[f]?).bind Obj.w)) (.ref ((kids'[f]?).bind Obj.w)) := by
                    have hw := bind_w h6 h7 f
                    generalize (kids[f]?).bind Obj.w = q at hw ⊢
                    generalize (kids'[f]?).bind Obj.w = q' at hw ⊢
                    cases q <;> cases q' <;> first | exact hw.elim | exact .nil | exact .ref hw
                  exact goes_mk (step_write hm (ptrR_path h1 [f, 0]) hv) (.mk h1 h2 h3 h4 h5 h6 h7)
              · trivial
    | list e =>
      dsimp only
      by_cases hc : cm = .value
      · rw [if_pos hc, if_pos hc]
        obtain ⟨h8, h9⟩ := kidsR_modify h6 h7 0 (φ := fun o => o.park.reset) (φ' := fun o => o.park.reset)
          (fun k k' h => objR_reset (objR_park k k' h))
        exact goes_mk (step_refl hm) (.mk h1 h2 h3 h4 h5 h8 h9)
      · rw [if_neg hc, if_neg hc]
        trivial

theorem objR_same {lo δ n : Nat} {o o' : Obj} (h : ObjR lo δ n o o') :
    o'.ty = o.ty ∧ o'.ph = o.ph ∧ (o.given = true → o'.given = true) ∧ (o.begun = true → o'.begun = true) ∧
      o'.cm = o.cm := by
  cases h with
  | mk _ _ _ h4 h5 => exact ⟨rfl, rfl, h4, h5, rfl⟩

theorem ready_r {lo δ : Nat} {a a' : St} (repr : Bool) (h : StR lo δ a a') :
    OptR lo δ a a' (ready repr a) (ready repr a') := by
  unfold ready
  rw [(objR_same h.obj).2.1]
  split
  · exact goes_refl h
  · exact tidy_r repr h
  · trivial

/-- What is lent of both. -/
def LendR (lo δ n : Nat) : Option (Option Ptr × MarkAt) → Option (Option Ptr × MarkAt) → Prop
  | none, none => True
  | some x, some x' => PlaceR lo δ n x.1 x'.1 ∧ MarkR lo δ n x.2 x'.2 ∧ x.2.isNil = x'.2.isNil
  | _, _ => False

theorem lendField_r {lo δ : Nat} {μ μ' : Mem} (hm : MemR lo δ μ μ') (fd : FieldT) (i : Nat) {w w' : Option Ptr}
    (h : PlaceR lo δ μ.next w w') : LendR lo δ μ.next (lendField fd i μ w) (lendField fd i μ' w') := by
  unfold lendField
  cases w with
  | none => cases w' with
    | none => trivial
    | some p => exact h.elim
  | some p => cases w' with
    | none => exact h.elim
    | some p' =>
      replace h : PtrR lo δ μ.next p p' := h
      dsimp only
      split
      · exact ⟨ptrR_path h [i], trivial, rfl⟩
      · split
        · have hr := read_r hm (ptrR_path h [i, 0])
          generalize μ.read _ = v at hr ⊢
          generalize μ'.read _ = v' at hr ⊢
          cases hr with
          | nil => exact ⟨trivial, ptrR_path h [i], rfl⟩
          | ref hp => exact ⟨hp, ptrR_path h [i], rfl⟩
          | _ => trivial
        · exact ⟨ptrR_path h [i, 0], ptrR_path h [i], rfl⟩

theorem outR_trans {lo δ : Nat} {a a' b b' : St} {o o' : Out} (h : Goes lo δ a a' b b') (ho : OutR lo δ b b' o o') :
    OutR lo δ a a' o o' := by
  cases o <;> cases o' <;> first | exact ho.elim | trivial | skip
  · exact goes_trans h ho
  · exact ⟨ho.1, goes_trans h ho.2⟩

theorem readied {lo δ : Nat} {a a' : St} (repr : Bool) (h : StR lo δ a a') :
    (ready repr a = none ∧ ready repr a' = none) ∨
      ∃ b b', ready repr a = some b ∧ ready repr a' = some b' ∧ Goes lo δ a a' b b' := by
  have hr := ready_r repr h
  cases h1 : ready repr a with
  | none => cases h2 : ready repr a' with
    | none => exact .inl ⟨rfl, rfl⟩
    | some b => rw [h1, h2] at hr; exact hr.elim
  | some b => cases h2 : ready repr a' with
    | none => rw [h1, h2] at hr; exact hr.elim
    | some b' =>
      rw [h1, h2] at hr
      exact .inr ⟨b, b', rfl, rfl, hr⟩

theorem assembleEntry_r {lo δ : Nat} {a a' : St} (repr : Bool) (x : Bytes) (h : StR lo δ a a') :
    OutR lo δ a a' (assembleEntry repr x a) (assembleEntry repr x a') := by
  unfold assembleEntry
  rw [(objR_same h.obj).1]
  split
  · rename_i fs _
    rcases readied repr h with ⟨e1, e2⟩ | ⟨b, b', e1, e2, hr⟩
    · rw [e1, e2]; trivial
    rw [e1, e2]
    refine outR_trans hr ?_
    have hb := hr.1
    obtain ⟨μ, mk, o⟩ := b
    obtain ⟨μ', mk', o'⟩ := b'
    obtain ⟨hm, hk, ho⟩ := hb
    dsimp only at hm hk ho
    subst hk
    cases ho with
    | @mk t w w' m m' g g' b b' ph s f cm kids kids' h1 h2 h3 h4 h5 h6 h7 =>
      dsimp only
      cases hk : takeKey fs x s with
      | panic => trivial
      | err e => exact ⟨rfl, goes_mk (step_refl hm) (.mk h1 h2 h3 h4 h5 h6 h7)⟩
      | ok q =>
        obtain ⟨i, fd⟩ := q
        dsimp only
        have hl := lendField_r hm fd i h1
        cases hl1 : lendField fd i μ w with
        | none => cases hl2 : lendField fd i μ' w' with
          | none => trivial
          | some q => rw [hl1, hl2] at hl; exact hl.elim
        | some q => cases hl2 : lendField fd i μ' w' with
          | none => rw [hl1, hl2] at hl; exact hl.elim
          | some q' =>
            rw [hl1, hl2] at hl
            obtain ⟨h8, h9⟩ := kidsR_modify h6 h7 i (objR_lend hl.1 hl.2.1 hl.2.2)
            exact goes_mk (step_refl hm) (.mk h1 h2 h3 h4 h5 h8 h9)
  · trivial

theorem assembleKey_r {lo δ : Nat} {a a' : St} (repr : Bool) (h : StR lo δ a a') :
    OutR lo δ a a' (assembleKey repr a) (assembleKey repr a') := by
  unfold assembleKey
  rw [(objR_same h.obj).1]
  split
  · rcases readied repr h with ⟨e1, e2⟩ | ⟨b, b', e1, e2, hr⟩
    · rw [e1, e2]; trivial
    rw [e1, e2]
    refine outR_trans hr ?_
    have hb := hr.1
    obtain ⟨μ, mk, o⟩ := b
    obtain ⟨μ', mk', o'⟩ := b'
    obtain ⟨hm, hk, ho⟩ := hb
    dsimp only at hm hk ho
    subst hk
    cases ho with
    | mk h1 h2 h3 h4 h5 h6 h7 => exact goes_mk (step_refl hm) (.mk h1 h2 h3 h4 h5 h6 h7)
  · trivial

theorem keyAssign_r {lo δ : Nat} {a a' : St} (x : Bytes) (h : StR lo δ a a') :
    OutR lo δ a a' (keyAssign x a) (keyAssign x a') := by
  obtain ⟨μ, mk, o⟩ := a
  obtain ⟨μ', mk', o'⟩ := a'
  obtain ⟨hm, hk, ho⟩ := h
  dsimp only at hm hk ho
  subst hk
  cases ho with
  | @mk t w w' m m' g g' b b' ph s f cm kids kids' h1 h2 h3 h4 h5 h6 h7 =>
    simp only [keyAssign]
    cases hs : t.shape with
    | struct fs =>
      dsimp only
      by_cases hp : ph ≠ .midKey
      · rw [if_pos hp, if_pos hp]
        trivial
      · rw [if_neg hp, if_neg hp]
        cases takeKey fs x s with
        | panic => trivial
        | err e => exact ⟨rfl, goes_mk (step_refl hm) (.mk h1 h2 h3 h4 h5 h6 h7)⟩
        | ok q => exact goes_mk (step_refl hm) (.mk h1 h2 h3 h4 h5 h6 h7)
    | text => trivial
    | link => trivial
    | list e => trivial

theorem keyAssignOther_r {lo δ : Nat} {a a' : St} (h : StR lo δ a a') :
    OutR lo δ a a' (keyAssignOther a) (keyAssignOther a') := by
  unfold keyAssignOther
  rw [(objR_same h.obj).1]
  split
  · exact ⟨rfl, goes_refl h⟩
  · trivial

theorem listR_append {lo δ n : Nat} {fs fs' gs gs' : List MVal} (hl : fs.length = fs'.length)
    (h : ∀ (i : Nat) (x x' : MVal), fs[i]? = some x → fs'[i]? = some x' → ValR lo δ n x x')
    (h' : ∀ (i : Nat) (x x' : MVal), gs[i]? = some x → gs'[i]? = some x' → ValR lo δ n x x') :
    ∀ (i : Nat) (x x' : MVal), (fs ++ gs)[i]? = some x → (fs' ++ gs')[i]? = some x' → ValR lo δ n x x' := by
  intro i x x' hx hx'
  rw [List.getElem?_append] at hx hx'
  split at hx
  · rw [if_pos (by omega)] at hx'
    exact h i x x' hx hx'
  · rw [if_neg (by omega), ← hl] at hx'
    exact h' _ x x' hx hx'

theorem listR_cons {lo δ n : Nat} {gs gs' : List MVal} {y y' : MVal} (hy : ValR lo δ n y y')
    (h : ∀ (i : Nat) (x x' : MVal), gs[i]? = some x → gs'[i]? = some x' → ValR lo δ n x x') :
    ∀ (i : Nat) (x x' : MVal), (y :: gs)[i]? = some x → (y' :: gs')[i]? = some x' → ValR lo δ n x x' := by
  intro i x x' hx hx'
  cases i with
  | zero => cases hx; cases hx'; exact hy
  | succ i => exact h i x x' hx hx'

theorem listR_drop {lo δ n : Nat} {fs fs' : List MVal} (k : Nat)
    (h : ∀ (i : Nat) (x x' : MVal), fs[i]? = some x → fs'[i]? = some x' → ValR lo δ n x x') :
    ∀ (i : Nat) (x x' : MVal), (fs.drop k)[i]? = some x → (fs'.drop k)[i]? = some x' → ValR lo δ n x x' := by
  intro i x x' hx hx'
  rw [List.getElem?_drop] at hx hx'
  exact h _ x x' hx hx'

/-- What `append` makes of both. -/
def AppR (lo δ : Nat) (μ μ' : Mem) : Option (Mem × Ptr) → Option (Mem × Ptr) → Prop
  | none, none => True
  | some x, some x' => Step lo δ μ μ' x.1 x'.1 ∧ PtrR lo δ x.1.next x.2 x'.2
  | _, _ => False

theorem appendZero_r {lo δ : Nat} {μ μ' : Mem} (hm : MemR lo δ μ μ') (grow : Nat → Nat) (e : T) {p p' : Ptr}
    (h : PtrR lo δ μ.next p p') : AppR lo δ μ μ' (appendZero grow e p μ) (appendZero grow e p' μ') := by
  have hr := read_r hm h
  unfold appendZero
  generalize μ.read p = v at hr ⊢
  generalize μ'.read p' = v' at hr ⊢
  have hnew : ∀ {old old' : List MVal} (l c : Nat), old.length = old'.length →
      (∀ (i : Nat) (x x' : MVal), old[i]? = some x → old'[i]? = some x' → ValR lo δ μ.next x x') →
      Step lo δ μ μ' ((μ.alloc (.arr (old ++ [T.zeroM e]))).write p (.slice μ.next l c))
        ((μ'.alloc (.arr (old' ++ [T.zeroM e]))).write p' (.slice μ'.next l c)) := by
    intro old old' l c hl ho
    have h1 := step_alloc hm (x := .arr (old ++ [T.zeroM e])) (x' := .arr (old' ++ [T.zeroM e]))
      (.arr (by simp [hl]) (listR_append hl ho (listR_cons (valR_zero _ _) (by intro i x x' h; cases h))))
    refine step_trans h1 (step_write h1.mem (placeR_mono (w := some p) (w' := some p') h1.mono h) ?_)
    rw [hm.next]
    exact .slice hm.low (Nat.lt_succ_self _)
  have hat : ∀ (l : Nat), PtrR lo δ (μ.next + 1) (μ.next, [l]) (μ'.next, [l]) := fun l =>
    ⟨hm.low, Nat.lt_succ_self _, by rw [hm.next]⟩
  cases hr with
  | @slice r len cap h1 h2 =>
    dsimp only
    have ha := hm.at' r h1 h2
    generalize hv : μ.at' r = v at ha ⊢
    generalize hv' : μ'.at' (r + δ) = v' at ha ⊢
    by_cases hc : len < cap
    · rw [if_pos hc, if_pos hc]
      cases ha with
      | @arr vs vs' hl hh =>
        dsimp only
        have hv2 : ValR lo δ μ.next (.arr (vs.take len ++ T.zeroM e :: vs.drop (len + 1)))
            (.arr (vs'.take len ++ T.zeroM e :: vs'.drop (len + 1))) :=
          .arr (by simp [hl]) (listR_append (by simp [hl]) (listR_take _ hh)
            (listR_cons (valR_zero _ _) (listR_drop _ hh)))
        have h3 := step_write hm (p := (r, [])) (p' := (r + δ, [])) ⟨h1, h2, rfl⟩ hv2
        exact ⟨step_trans h3 (step_write h3.mem h (.slice h1 h2)), h1, h2, rfl⟩
      | _ => trivial
    · rw [if_neg hc, if_neg hc]
      refine ⟨?_, hat len⟩
      by_cases h0 : cap = 0
      · rw [if_pos h0, if_pos h0]
        exact hnew _ _ rfl (by intro i x x' h; cases h)
      · rw [if_neg h0, if_neg h0]
        cases ha with
        | arr hl hh => exact hnew _ _ (by simp [hl]) (listR_take _ hh)
        | _ => exact hnew _ _ rfl (by intro i x x' h; cases h)
  | empty =>
    dsimp only
    rw [if_neg (Nat.lt_irrefl 0), if_neg (Nat.lt_irrefl 0)]
    refine ⟨?_, hat 0⟩
    rw [if_pos rfl, if_pos rfl]
    exact hnew _ _ rfl (by intro i x x' h; cases h)
  | _ => trivial

theorem assembleValue_r {lo δ : Nat} {a a' : St} (repr : Bool) (grow : Nat → Nat) (h : StR lo δ a a') :
    OutR lo δ a a' (assembleValue repr grow a) (assembleValue repr grow a') := by
  unfold assembleValue
  rw [(objR_same h.obj).1]
  split
  · rename_i fs _
    obtain ⟨μ, mk, o⟩ := a
    obtain ⟨μ', mk', o'⟩ := a'
    obtain ⟨hm, hk, ho⟩ := h
    dsimp only at hm hk ho
    subst hk
    cases ho with
    | @mk t w w' m m' g g' b b' ph s f cm kids kids' h1 h2 h3 h4 h5 h6 h7 =>
      cases ph with
      | expectValue =>
        dsimp only
        cases fs[f]? with
        | none => trivial
        | some fd =>
          dsimp only
          have hl := lendField_r hm fd f h1
          cases hl1 : lendField fd f μ w with
          | none => cases hl2 : lendField fd f μ' w' with
            | none => trivial
            | some q => rw [hl1, hl2] at hl; exact hl.elim
          | some q => cases hl2 : lendField fd f μ' w' with
            | none => rw [hl1, hl2] at hl; exact hl.elim
            | some q' =>
              rw [hl1, hl2] at hl
              obtain ⟨h8, h9⟩ := kidsR_modify h6 h7 f (objR_lend hl.1 hl.2.1 hl.2.2)
              exact goes_mk (step_refl hm) (.mk h1 h2 h3 h4 h5 h8 h9)
      | _ => trivial
  · rename_i e _
    rcases readied repr h with ⟨e1, e2⟩ | ⟨b, b', e1, e2, hr⟩
    · rw [e1, e2]; trivial
    rw [e1, e2]
    refine outR_trans hr ?_
    have hb := hr.1
    obtain ⟨μ, mk, o⟩ := b
    obtain ⟨μ', mk', o'⟩ := b'
    obtain ⟨hm, hk, ho⟩ := hb
    dsimp only at hm hk ho
    subst hk
    cases ho with
    | @mk t w w' m m' g g' b b' ph s f cm kids kids' h1 h2 h3 h4 h5 h6 h7 =>
      dsimp only
      cases w with
      | none => cases w' with
        | none => trivial
        | some p => exact h1.elim
      | some p => cases w' with
        | none => exact h1.elim
        | some p' =>
          dsimp only [Option.bind_some]
          have hl := appendZero_r hm grow e h1
          cases hl1 : appendZero grow e p μ with
          | none => cases hl2 : appendZero grow e p' μ' with
            | none => trivial
            | some q => rw [hl1, hl2] at hl; exact hl.elim
          | some q => cases hl2 : appendZero grow e p' μ' with
            | none => rw [hl1, hl2] at hl; exact hl.elim
            | some q' =>
              rw [hl1, hl2] at hl
              obtain ⟨hst, hp⟩ := hl
              obtain ⟨h8, h9⟩ := kidsR_modify h6 (fun i k k' hk hk' => objR_mono hst.mono (h7 i k k' hk hk')) 0
                (objR_lend (w := some q.2) (w' := some q'.2) (m := .parent) (m' := .parent) hp trivial rfl)
              exact goes_mk hst (.mk (placeR_mono hst.mono h1) (markR_mono hst.mono h2) h3 h4 h5 h8 h9)
  · trivial

theorem finish_r {lo δ : Nat} {a a' : St} (repr : Bool) (h : StR lo δ a a') :
    OutR lo δ a a' (finish repr a) (finish repr a') := by
  unfold finish
  rw [(objR_same h.obj).1]
  split
  · rename_i fs _
    rcases readied repr h with ⟨e1, e2⟩ | ⟨b, b', e1, e2, hr⟩
    · rw [e1, e2]; trivial
    rw [e1, e2]
    refine outR_trans hr ?_
    have hb := hr.1
    obtain ⟨μ, mk, o⟩ := b
    obtain ⟨μ', mk', o'⟩ := b'
    obtain ⟨hm, hk, ho⟩ := hb
    dsimp only at hm hk ho
    subst hk
    cases ho with
    | @mk t w w' m m' g g' b b' ph s f cm kids kids' h1 h2 h3 h4 h5 h6 h7 =>
      dsimp only
      by_cases hf : s &&& sufficient fs ≠ sufficient fs
      · rw [if_pos hf, if_pos hf]
        exact ⟨rfl, goes_mk (step_refl hm) (.mk h1 h2 h3 h4 h5 h6 h7)⟩
      · rw [if_neg hf, if_neg hf]
        exact goes_mk (step_refl hm) (.mk h1 h2 h3 h4 h5 h6 h7)
  · rcases readied repr h with ⟨e1, e2⟩ | ⟨b, b', e1, e2, hr⟩
    · rw [e1, e2]; trivial
    rw [e1, e2]
    refine outR_trans hr ?_
    have hb := hr.1
    obtain ⟨μ, mk, o⟩ := b
    obtain ⟨μ', mk', o'⟩ := b'
    obtain ⟨hm, hk, ho⟩ := hb
    dsimp only at hm hk ho
    subst hk
    cases ho with
    | mk h1 h2 h3 h4 h5 h6 h7 => exact goes_mk (step_refl hm) (.mk h1 h2 h3 h4 h5 h6 h7)
  · trivial

theorem call_r {lo δ : Nat} {a a' : St} (repr : Bool) (grow : Nat → Nat) (c : Call) (h : StR lo δ a a') :
    OutR lo δ a a' (call repr grow a c) (call repr grow a' c) := by
  obtain ⟨-, -, hg, hb, -⟩ := objR_same h.obj
  have own : ∀ {o o' : Out}, (a.obj.given = true → OutR lo δ a a' o o') →
      OutR lo δ a a' (if a.obj.given then o else .noHandle) (if a'.obj.given then o' else .noHandle) := by
    intro o o' ho
    by_cases h1 : a.obj.given = true
    · rw [if_pos h1, if_pos (hg h1)]
      exact ho h1
    · rw [if_neg h1]
      trivial
  have inner : ∀ {o o' : Out}, OutR lo δ a a' o o' →
      OutR lo δ a a' (if a.obj.begun then o else .noHandle) (if a'.obj.begun then o' else .noHandle) := by
    intro o o' ho
    by_cases h1 : a.obj.begun = true
    · rw [if_pos h1, if_pos (hb h1)]
      exact ho
    · rw [if_neg h1]
      trivial
  cases c with
  | beginMap => exact own fun hg => beginMap_r h hg
  | beginList hint => exact own fun hg => beginList_r hint h hg
  | assignNull => exact own fun _ => assignNull_r h
  | assignOther => exact own fun _ => ⟨rfl, goes_refl h⟩
  | assignString x => exact own fun _ => assignString_r x h
  | assignLink x => exact own fun _ => assignLink_r x h
  | assignSelf u v => exact own fun _ => assignSelf_r u v h
  | assembleEntry x => exact inner (assembleEntry_r repr x h)
  | assembleKey => exact inner (assembleKey_r repr h)
  | keyAssign x => exact inner (keyAssign_r x h)
  | keyAssignOther => exact inner (keyAssignOther_r h)
  | assembleValue => exact inner (assembleValue_r repr grow h)
  | finish => exact inner (finish_r repr h)

theorem kid_r {lo δ : Nat} {a a' : St} (h : StR lo δ a a') (i : Nat) :
    (kid a i = none ∧ kid a' i = none) ∨ ∃ k k', kid a i = some k ∧ kid a' i = some k' ∧ StR lo δ k k' ∧
      k.mem = a.mem ∧ k'.mem = a'.mem := by
  obtain ⟨μ, mk, o⟩ := a
  obtain ⟨μ', mk', o'⟩ := a'
  obtain ⟨hm, hk, ho⟩ := h
  dsimp only at hm hk ho
  subst hk
  cases ho with
  | @mk t w w' m m' g g' b b' ph s f cm kids kids' h1 h2 h3 h4 h5 h6 h7 =>
    unfold kid
    dsimp only [Obj.kids]
    cases hk : kids[i]? with
    | none =>
      have : kids'[i]? = none := by
        rw [List.getElem?_eq_none_iff] at hk ⊢
        omega
      rw [this]
      exact .inl ⟨rfl, rfl⟩
    | some k =>
      obtain ⟨k', hk'⟩ := objR_kid (lo := lo) (δ := δ) (n := μ.next) h6 hk
      rw [hk']
      have hkk := h7 i k k' hk hk'
      refine .inr ⟨_, _, rfl, rfl, ⟨hm, ?_, hkk⟩, rfl, rfl⟩
      cases hkk with
      | @mk _ _ _ m m' _ _ _ _ _ _ _ _ _ _ _ h2 =>
        dsimp only [Obj.m]
        cases m <;> cases m' <;> first | exact h2.elim | rfl | exact mark_r hm h2

theorem putBack_r {lo δ : Nat} {a a' k k' c c' : St} (h : StR lo δ a a') (i : Nat) (hc : c.mem = a.mem)
    (hc' : c'.mem = a'.mem) (hk : Goes lo δ c c' k k') :
    Goes lo δ a a' (putBack a i k) (putBack a' i k') := by
  obtain ⟨μ, mk, o⟩ := a
  obtain ⟨μ', mk', o'⟩ := a'
  obtain ⟨hm, hmk, ho⟩ := h
  obtain ⟨⟨km, kmk, ko⟩, hst⟩ := hk
  rw [hc, hc'] at hst
  obtain ⟨ν, mk1, o1⟩ := k
  obtain ⟨ν', mk1', o1'⟩ := k'
  dsimp only at hm hmk ho km kmk ko hst
  subst hmk
  subst kmk
  cases ho with
  | @mk t w w' m m' g g' b b' ph s f cm kids kids' h1 h2 h3 h4 h5 h6 h7 =>
    have hset := kidsR_set (fun i k k' hk hk' => objR_mono hst.mono (h7 i k k' hk hk')) (j := i) ko
    have hlen : (kids.set i o1).length = (kids'.set i o1').length := by simp [h6]
    unfold putBack
    have hmm : MarkR lo δ ν.next o1.m o1'.m := by cases ko with | mk _ h2 => exact h2
    dsimp only
    generalize o1.m = x at hmm ⊢
    generalize o1'.m = x' at hmm ⊢
    cases x <;> cases x' <;> first | exact hmm.elim | skip
    case mem.mem p p' =>
      have hst2 := step_setMark mk1' km hmm
      refine goes_mk (step_trans hst hst2) (.mk (placeR_mono hst2.mono (placeR_mono hst.mono h1))
        (markR_mono hst2.mono (markR_mono hst.mono h2)) h3 h4 h5 hlen
        fun i k k' hk hk' => objR_mono hst2.mono (hset i k k' hk hk'))
    all_goals exact goes_mk hst (.mk (placeR_mono hst.mono h1) (markR_mono hst.mono h2) h3 h4 h5 hlen hset)

theorem callAt_r {lo δ : Nat} {a a' : St} (repr : Bool) (grow : Nat → Nat) (q : List Nat) (c : Call)
    (h : StR lo δ a a') : OutR lo δ a a' (callAt repr grow q c a) (callAt repr grow q c a') := by
  induction q generalizing a a' with
  | nil => exact call_r repr grow c h
  | cons i q ih =>
    unfold callAt
    rcases kid_r h i with ⟨h1, h2⟩ | ⟨k, k', h1, h2, hk, e1, e2⟩
    · rw [h1]; trivial
    · rw [h1, h2]
      dsimp only
      have := ih hk
      generalize callAt repr grow q c k = o at this ⊢
      generalize callAt repr grow q c k' = o' at this ⊢
      cases o <;> cases o' <;> first | exact this.elim | trivial | skip
      · exact putBack_r h i e1 e2 this
      · exact ⟨this.1, putBack_r h i e1 e2 this.2⟩

/-! ## `AssignNode` -/

theorem andThen_r {lo δ : Nat} {a a' : St} {o o' : Out} {f f' : St → Out} (h : OutR lo δ a a' o o')
    (hf : ∀ b b', StR lo δ b b' → OutR lo δ b b' (f b) (f' b')) : OutR lo δ a a' (o.andThen f) (o'.andThen f') := by
  cases o <;> cases o' <;> first | exact h.elim | exact h | skip
  exact outR_trans h (hf _ _ h.1)

theorem withKid_r {lo δ : Nat} {a a' : St} {act : St → Out} (i : Nat) (h : StR lo δ a a')
    (hact : ∀ k k', StR lo δ k k' → OutR lo δ k k' (act k) (act k')) :
    OutR lo δ a a' (withKid act a i) (withKid act a' i) := by
  unfold withKid
  rcases kid_r h i with ⟨h1, h2⟩ | ⟨k, k', h1, h2, hk, e1, e2⟩
  · rw [h1]; trivial
  · rw [h1, h2]
    dsimp only
    have := hact k k' hk
    generalize act k = o at this ⊢
    generalize act k' = o' at this ⊢
    cases o <;> cases o' <;> first | exact this.elim | trivial | skip
    · exact putBack_r h i e1 e2 this
    · exact ⟨this.1, putBack_r h i e1 e2 this.2⟩

mutual

theorem nd_r {lo δ : Nat} (repr : Bool) (grow : Nat → Nat) : ∀ (n : Nd) (a a' : St), StR lo δ a a' →
    OutR lo δ a a' (assignNd repr grow n a) (assignNd repr grow n a')
  | .null, a, a', h => by
    unfold assignNd
    exact assignNull_r h
  | .own t v n, a, a', h => by
    unfold assignNd
    rw [(objR_same h.obj).1]
    split
    · exact assignSelf_r t v h
    · exact nd_r repr grow n a a' h
  | .text b, a, a', h => by
    unfold assignNd
    rw [(objR_same h.obj).1]
    split
    · exact assignString_r b h
    · exact ⟨rfl, goes_refl h⟩
  | .link l, a, a', h => by
    unfold assignNd
    rw [(objR_same h.obj).1]
    split
    · exact assignLink_r l h
    · exact ⟨rfl, goes_refl h⟩
  | .other, a, a', h => by
    unfold assignNd
    exact ⟨rfl, goes_refl h⟩
  | .list ns, a, a', h => by
    unfold assignNd
    rw [(objR_same h.obj).1]
    split
    · exact nds_r repr grow ns a a' h
    · exact ⟨rfl, goes_refl h⟩
  | .map es, a, a', h => by
    unfold assignNd
    rw [(objR_same h.obj).1]
    split
    · exact ents_r repr grow es a a' h
    · exact ⟨rfl, goes_refl h⟩

theorem nds_r {lo δ : Nat} (repr : Bool) (grow : Nat → Nat) : ∀ (ns : Nds) (a a' : St), StR lo δ a a' →
    OutR lo δ a a' (assignNds repr grow ns a) (assignNds repr grow ns a')
  | .nil, a, a', h => by
    unfold assignNds
    exact finish_r repr h
  | .cons n r, a, a', h => by
    unfold assignNds
    exact andThen_r (andThen_r (assembleValue_r repr grow h) fun b b' hb =>
      withKid_r 0 hb fun k k' hk => nd_r repr grow n k k' hk) fun b b' hb => nds_r repr grow r b b' hb

theorem ents_r {lo δ : Nat} (repr : Bool) (grow : Nat → Nat) : ∀ (es : Ents) (a a' : St), StR lo δ a a' →
    OutR lo δ a a' (assignEnts repr grow es a) (assignEnts repr grow es a')
  | .nil, a, a', h => by
    unfold assignEnts
    exact finish_r repr h
  | .cons k n r, a, a', h => by
    unfold assignEnts
    refine andThen_r (andThen_r (andThen_r (andThen_r (assembleKey_r repr h) fun b b' hb => keyAssign_r k hb)
      fun b b' hb => assembleValue_r repr grow hb) fun b b' hb => ?_) fun b b' hb => ents_r repr grow r b b' hb
    have hf : b'.obj.f = b.obj.f := by
      have ho := hb.obj
      generalize b.obj = o at ho ⊢
      generalize b'.obj = o' at ho ⊢
      cases ho
      rfl
    rw [hf]
    exact withKid_r _ hb fun k k' hk => nd_r repr grow n k k' hk

end

theorem assignAt_r {lo δ : Nat} {a a' : St} (repr : Bool) (grow : Nat → Nat) (n : Nd) (q : List Nat)
    (h : StR lo δ a a') : OutR lo δ a a' (assignAt repr grow n q a) (assignAt repr grow n q a') := by
  induction q generalizing a a' with
  | nil =>
    unfold assignAt assign
    obtain ⟨-, -, hg, -, -⟩ := objR_same h.obj
    by_cases h1 : a.obj.given = true
    · rw [if_pos h1, if_pos (hg h1)]
      exact nd_r repr grow n a a' h
    · rw [if_neg h1]
      trivial
  | cons i q ih =>
    unfold assignAt
    exact withKid_r i h fun k k' hk => ih hk

theorem deedAt_r {lo δ : Nat} {a a' : St} (repr : Bool) (grow : Nat → Nat) (q : List Nat) (d : Deed)
    (h : StR lo δ a a') : OutR lo δ a a' (deedAt repr grow q d a) (deedAt repr grow q d a') := by
  cases d with
  | call c => exact callAt_r repr grow q c h
  | node n => exact assignAt_r repr grow n q h

/-! ## Marks that are not there -/

theorem at_r {lo δ n : Nat} {o o' : Obj} (q : List Nat) (h : ObjR lo δ n o o') :
    (o.at' q = none ∧ o'.at' q = none) ∨ ∃ k k', o.at' q = some k ∧ o'.at' q = some k' ∧ ObjR lo δ n k k' := by
  induction q generalizing o o' with
  | nil => exact .inr ⟨o, o', rfl, rfl, h⟩
  | cons i q ih =>
    cases h with
    | @mk t w w' m m' g g' b b' ph s f cm kids kids' h1 h2 h3 h4 h5 h6 h7 =>
      simp only [Obj.at']
      cases hk : kids[i]? with
      | none =>
        have : kids'[i]? = none := by
          rw [List.getElem?_eq_none_iff] at hk ⊢
          omega
        rw [this]
        exact .inl ⟨rfl, rfl⟩
      | some k =>
        obtain ⟨k', hk'⟩ := objR_kid (lo := lo) (δ := δ) (n := n) h6 hk
        rw [hk']
        exact ih (h7 i k k' hk hk')

/-- Without a handle there is no call. -/
theorem deedAt_none {repr : Bool} {grow : Nat → Nat} {q : List Nat} {d : Deed} {a : St} {k : Obj}
    (hk : a.obj.at' q = some k) (h : ¬ (k.given = true ∨ k.begun = true)) : deedAt repr grow q d a = .noHandle := by
  induction q generalizing a with
  | nil =>
    cases hk
    rw [not_or] at h
    cases d with
    | call c =>
      show call repr grow a c = _
      unfold call
      cases c <;> simp only [h.1, h.2, Bool.false_eq_true, if_false]
    | node n =>
      show assign repr grow n a = _
      unfold assign
      rw [if_neg h.1]
  | cons i q ih =>
    obtain ⟨μ, mk, t, w, m, g, b, ph, s, f, cm, kids⟩ := a
    simp only [Obj.at'] at hk
    cases d with
    | call c =>
      show callAt repr grow (i :: q) c _ = _
      unfold callAt
      simp only [kid, Obj.kids]
      cases hi : kids[i]? with
      | none => rfl
      | some k0 =>
        rw [hi] at hk
        dsimp only
        have ih' : ∀ x : St, x.obj = k0 → callAt repr grow q c x = .noHandle :=
          fun x hx => ih (a := x) (by rw [hx]; exact hk)
        rw [ih' _ rfl]
    | node n =>
      show assignAt repr grow n (i :: q) _ = _
      unfold assignAt withKid
      simp only [kid, Obj.kids]
      cases hi : kids[i]? with
      | none => rfl
      | some k0 =>
        rw [hi] at hk
        dsimp only
        have ih' : ∀ x : St, x.obj = k0 → assignAt repr grow n q x = .noHandle :=
          fun x hx => ih (a := x) (by rw [hx]; exact hk)
        rw [ih' _ rfl]

theorem withoutMark_r {lo δ : Nat} {a a' : St} {d : Deed} {o o' : Out} (h : OutR lo δ a a' o o') :
    OutR lo δ a a' (withoutMark d o) (withoutMark d o') := by
  cases o <;> cases o' <;> first | exact h.elim | skip
  all_goals cases d with
    | call c => cases c <;> first | exact h | trivial
    | node n => cases n <;> first | exact h | trivial

theorem deedAfter_r {lo δ : Nat} {a a' : St} (repr : Bool) (grow : Nat → Nat) (q : List Nat) (d : Deed)
    (h : StR lo δ a a') : OutR lo δ a a' (deedAfter repr grow q d a) (deedAfter repr grow q d a') := by
  have hc := deedAt_r repr grow q d h
  have same : unmarked q a.obj = unmarked q a'.obj →
      OutR lo δ a a' (deedAfter repr grow q d a) (deedAfter repr grow q d a') := by
    intro hu
    unfold deedAfter
    rw [hu]
    split
    · exact withoutMark_r hc
    · exact hc
  cases q with
  | nil => exact same rfl
  | cons i q =>
    rcases at_r (i :: q) h.obj with ⟨h1, h2⟩ | ⟨k, k', h1, h2, hk⟩
    · exact same (by simp only [unmarked, h1, h2])
    · by_cases hg : k.given = true ∨ k.begun = true
      · refine same ?_
        simp only [unmarked, h1, h2]
        cases hk with
        | mk _ _ h3 => exact h3 hg
      · have hn : deedAt repr grow (i :: q) d a = .noHandle := deedAt_none h1 hg
        unfold deedAfter
        rw [hn]
        split
        · cases d with
          | call c => cases c <;> trivial
          | node n => cases n <;> trivial
        · trivial

end Verif.Handles
