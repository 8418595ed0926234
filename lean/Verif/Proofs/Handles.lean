import Verif.Proofs.Mem
import Verif.Proofs.Calls

/-!
# Assemblers in memory and assemblers with one child

`Sim μ mk o a F`: the assembler `o`, with its mark `mk` and the memory `μ`, is in the
state that `Verif.Model.Calls` has as `a`; the value under construction uses the
objects in `F` besides the place it is written to.
-/

namespace Verif.Handles

open Calls Spec

theorem rep_fuel {n m : Nat} {μ : Mem} {t : T} {v : Val} {x : MVal} {F : Foot} (hn : rank t ≤ n)
    (hm : rank t ≤ m) (h : Rep n μ t v x F) : Rep m μ t v x F := by
  induction n generalizing m t v x F with
  | zero =>
    cases hs : t.shape with
    | text => rw [rep_text hs] at h ⊢; exact h
    | link => rw [rep_link hs] at h ⊢; exact h
    | list e => have := rank_elem hs; omega
    | struct fs => have := rank_struct hs; omega
  | succ n ih =>
    cases hs : t.shape with
    | text => rw [rep_text hs] at h ⊢; exact h
    | link => rw [rep_link hs] at h ⊢; exact h
    | list e =>
      have hr := rank_elem hs
      obtain ⟨k, rfl⟩ : ∃ k, m = k + 1 := ⟨m - 1, by omega⟩
      unfold Rep at h ⊢
      rw [hs] at h ⊢
      obtain ⟨vs, r, cap, h1, h2, h3, h4⟩ := h
      refine ⟨vs, r, cap, h1, h2, h3, ?_⟩
      rcases h4 with h4 | ⟨xs, G, h4, h5, h6, h7, h8, h9⟩
      · exact Or.inl h4
      · exact Or.inr ⟨xs, G, h4, h5, h6, h7, h8,
          fun i v x hv hx => ih (by omega) (by omega) (h9 i v x hv hx)⟩
    | struct fs =>
      have hr := rank_struct hs
      obtain ⟨k, rfl⟩ : ∃ k, m = k + 1 := ⟨m - 1, by omega⟩
      unfold Rep at h ⊢
      rw [hs] at h ⊢
      obtain ⟨l, xs, G, h1, h2, h3, h4, h5, h6, h7⟩ := h
      refine ⟨l, xs, G, h1, h2, h3, h4, h5, h6, fun i fd o x hf ho hx => ?_⟩
      have hr := rank_field hs hf
      exact repField_imp (h7 i fd o x hf ho hx) (fun _ h => h) (fun _ _ => rfl)
        fun v x H H' _ hH' hR => rep_mono (ih (by omega) (by omega) hR) hH'

/-- `Rep` with as much fuel as the type takes. -/
def RepT (μ : Mem) (t : T) (v : Val) (x : MVal) (F : Foot) : Prop := Rep (rank t) μ t v x F

theorem repT_frame {μ μ' : Mem} {t : T} {v : Val} {x : MVal} {F F' : Foot}
    (h : RepT μ t v x F) (hF : ∀ r, F r → F' r) (hμ : ∀ r, F r → μ'.at' r = μ.at' r) :
    RepT μ' t v x F' := rep_frame h hF hμ

theorem repT_zero (μ : Mem) (t : T) (F : Foot) : RepT μ t (T.zero t) (T.zeroM t) F :=
  rep_zero μ (Nat.le_refl _) (Nat.le_refl _) F

theorem repT_list {μ : Mem} {t e : T} {v : Val} {x : MVal} {F : Foot} (hs : t.shape = .list e) :
    RepT μ t v x F ↔ ∃ vs r cap, v = .list vs ∧ x = .slice r vs.length cap ∧ vs.length ≤ cap ∧
      (cap = 0 ∨ ∃ xs G, μ.at' r = .arr xs ∧ vs.length ≤ xs.length ∧ F r ∧ Apart G ∧
        (∀ i q, G i q → F q ∧ q ≠ r) ∧
        ∀ i v x, vs[i]? = some v → xs[i]? = some x → RepT μ e v x (G i)) := by
  have hr := rank_elem hs
  obtain ⟨k, hk⟩ : ∃ k, rank t = k + 1 := ⟨rank t - 1, by omega⟩
  unfold RepT
  rw [hk]
  conv => lhs; unfold Rep
  rw [hs]
  constructor
  · rintro ⟨vs, r, cap, h1, h2, h3, h4⟩
    refine ⟨vs, r, cap, h1, h2, h3, ?_⟩
    rcases h4 with h4 | ⟨xs, G, h4, h5, h6, h7, h8, h9⟩
    · exact Or.inl h4
    · exact Or.inr ⟨xs, G, h4, h5, h6, h7, h8,
        fun i v x hv hx => rep_fuel (by omega) (by omega) (h9 i v x hv hx)⟩
  · rintro ⟨vs, r, cap, h1, h2, h3, h4⟩
    refine ⟨vs, r, cap, h1, h2, h3, ?_⟩
    rcases h4 with h4 | ⟨xs, G, h4, h5, h6, h7, h8, h9⟩
    · exact Or.inl h4
    · exact Or.inr ⟨xs, G, h4, h5, h6, h7, h8,
        fun i v x hv hx => rep_fuel (by omega) (by omega) (h9 i v x hv hx)⟩

theorem repT_struct {μ : Mem} {t : T} {fs : List FieldT} {v : Val} {x : MVal} {F : Foot}
    (hs : t.shape = .struct fs) :
    RepT μ t v x F ↔ ∃ l xs G, v = .struct l ∧ x = .struct xs ∧ l.length = fs.length ∧
      xs.length = fs.length ∧ Apart G ∧ (∀ i q, G i q → F q) ∧
      ∀ i fd o x, fs[i]? = some fd → l[i]? = some o → xs[i]? = some x →
        RepField (RepT μ) μ fd o x (G i) := by
  have hr := rank_struct hs
  obtain ⟨k, hk⟩ : ∃ k, rank t = k + 1 := ⟨rank t - 1, by omega⟩
  unfold RepT
  rw [hk]
  conv => lhs; unfold Rep
  rw [hs]
  constructor
  · rintro ⟨l, xs, G, h1, h2, h3, h4, h5, h6, h7⟩
    refine ⟨l, xs, G, h1, h2, h3, h4, h5, h6, fun i fd o x hf ho hx => ?_⟩
    have hr := rank_field hs hf
    exact repField_imp (h7 i fd o x hf ho hx) (fun _ h => h) (fun _ _ => rfl)
      fun v x H H' _ hH' hR => rep_mono (rep_fuel (by omega) (by omega) hR) hH'
  · rintro ⟨l, xs, G, h1, h2, h3, h4, h5, h6, h7⟩
    refine ⟨l, xs, G, h1, h2, h3, h4, h5, h6, fun i fd o x hf ho hx => ?_⟩
    have hr := rank_field hs hf
    exact repField_imp (h7 i fd o x hf ho hx) (fun _ h => h) (fun _ _ => rfl)
      fun v x H H' _ hH' hR => rep_mono (rep_fuel (by omega) (by omega) hR) hH'

/-! ## Assemblers that are not in use -/

/-- The types of the assemblers that an assembler contains. -/
def parts (t : T) : List T :=
  match t.shape with
  | .list e => [e]
  | .struct fs => fs.map FieldT.ty
  | _ => []

def IsStruct (t : T) : Prop := ∃ fs, t.shape = .struct fs

mutual

/-- An assembler of type `t` that is not in use, and that can be handed out if `fr`. -/
def Idle (fr : Bool) : T → Obj → Prop
  | t, .mk t' _ _ _ _ ph s _ cm kids => t' = t ∧ cm = .absent ∧
      (fr = true → parts t ≠ [] → ph = .initial) ∧ (fr = true → IsStruct t → s = 0) ∧
      IdleAll fr (parts t) kids

def IdleAll (fr : Bool) : List T → List Obj → Prop
  | [], [] => True
  | t :: ts, o :: os => Idle fr t o ∧ IdleAll fr ts os
  | _, _ => False

end

theorem idleAll_iff {fr : Bool} {ts : List T} {os : List Obj} :
    IdleAll fr ts os ↔ os.length = ts.length ∧
      ∀ (i : Nat) (t : T) (k : Obj), ts[i]? = some t → os[i]? = some k → Idle fr t k := by
  induction ts generalizing os with
  | nil => cases os <;> simp [IdleAll]
  | cons t ts ih =>
    cases os with
    | nil => simp [IdleAll]
    | cons o os =>
      simp only [IdleAll, ih, List.length_cons, Nat.add_right_cancel_iff]
      constructor
      · rintro ⟨h1, h2, h3⟩
        refine ⟨h2, fun i u k hu hk => ?_⟩
        cases i with
        | zero => cases hu; cases hk; exact h1
        | succ i => exact h3 i u k hu hk
      · rintro ⟨h1, h2⟩
        exact ⟨h2 0 t o rfl rfl, h1, fun i u k hu hk => h2 (i + 1) u k hu hk⟩

mutual

theorem idle_weaken {b b' : Bool} (h : b' = true → b = true) : (t : T) → (o : Obj) → Idle b t o → Idle b' t o
  | t, .mk t' w m g bb ph s f cm kids => by
    intro hi
    unfold Idle at hi ⊢
    obtain ⟨h1, h2, h3, h4, h5⟩ := hi
    exact ⟨h1, h2, fun hb => h3 (h hb), fun hb => h4 (h hb), idleAll_weaken h (parts t) kids h5⟩

theorem idleAll_weaken {b b' : Bool} (h : b' = true → b = true) : (ts : List T) → (os : List Obj) →
    IdleAll b ts os → IdleAll b' ts os
  | [], [] => fun _ => trivial
  | t :: ts, o :: os => fun hi => ⟨idle_weaken h t o hi.1, idleAll_weaken h ts os hi.2⟩
  | [], _ :: _ => fun hi => hi.elim
  | _ :: _, [] => fun hi => hi.elim

end

mutual

theorem idle_reset : (t : T) → (o : Obj) → Idle false t o → Idle true t o.reset
  | t, .mk t' w m g bb ph s f cm kids => by
    intro hi
    unfold Idle at hi
    obtain ⟨rfl, h2, h3, h4, h5⟩ := hi
    unfold Obj.reset
    have h6 := idleAll_reset (parts t') kids h5
    cases hs : t'.shape with
    | list e =>
      unfold Idle
      refine ⟨rfl, h2, fun _ _ => rfl, fun _ h => ?_, h6⟩
      obtain ⟨fs, h⟩ := h
      rw [hs] at h; cases h
    | struct fs =>
      unfold Idle
      exact ⟨rfl, h2, fun _ _ => rfl, fun _ _ => rfl, h6⟩
    | text =>
      unfold Idle
      have hp : parts t' = [] := by simp [parts, hs]
      refine ⟨rfl, h2, fun _ h => absurd hp h, fun _ h => ?_, ?_⟩
      · obtain ⟨fs, h⟩ := h
        rw [hs] at h; cases h
      · rw [hp] at h5 ⊢
        cases kids with
        | nil => trivial
        | cons => exact h5
    | link =>
      unfold Idle
      have hp : parts t' = [] := by simp [parts, hs]
      refine ⟨rfl, h2, fun _ h => absurd hp h, fun _ h => ?_, ?_⟩
      · obtain ⟨fs, h⟩ := h
        rw [hs] at h; cases h
      · rw [hp] at h5 ⊢
        cases kids with
        | nil => trivial
        | cons => exact h5

theorem idleAll_reset : (ts : List T) → (os : List Obj) → IdleAll false ts os →
    IdleAll true ts (Obj.resetAll os)
  | [], [] => fun _ => trivial
  | t :: ts, o :: os => fun hi => ⟨idle_reset t o hi.1, idleAll_reset ts os hi.2⟩
  | [], _ :: _ => fun hi => hi.elim
  | _ :: _, [] => fun hi => hi.elim

end

theorem idle_lend {b : Bool} {t : T} {o : Obj} (w : Option Ptr) (m : MarkAt) (h : Idle b t o) :
    Idle b t (o.lend w m) := by
  cases o; exact h

theorem idle_park {b : Bool} {t : T} {o : Obj} (h : Idle b t o) : Idle b t o.park := by
  cases o; exact h

theorem idle_new {n : Nat} {t : T} (h : rank t ≤ n) : Idle true t (newObj n t) := by
  induction n generalizing t with
  | zero =>
    unfold newObj Idle
    refine ⟨rfl, rfl, fun _ _ => rfl, fun _ _ => rfl, ?_⟩
    cases hs : t.shape with
    | text => simp [parts, hs, IdleAll]
    | link => simp [parts, hs, IdleAll]
    | list e => have := rank_elem hs; omega
    | struct fs => have := rank_struct hs; omega
  | succ n ih =>
    unfold newObj Idle
    refine ⟨rfl, rfl, fun _ _ => rfl, fun _ _ => rfl, ?_⟩
    cases hs : t.shape with
    | text => simp [parts, hs, IdleAll]
    | link => simp [parts, hs, IdleAll]
    | list e =>
      have := rank_elem hs
      simp only [parts, hs, IdleAll, and_true]
      exact ih (by omega)
    | struct fs =>
      rw [idleAll_iff]
      simp only [parts, hs, List.length_map, true_and]
      intro i u k hu hk
      rw [List.getElem?_map] at hu hk
      cases hf : fs[i]? with
      | none => rw [hf] at hu; cases hu
      | some fd =>
        rw [hf] at hu hk
        cases hu
        cases hk
        have := rank_field hs hf
        exact ih (by omega)

/-! ## The relation -/

/-- The assemblers in `ks` are not in use, except number `ex`. -/
def Kids (fr : Nat → Bool) (ex : Option Nat) (ts : List T) (ks : List Obj) : Prop :=
  ks.length = ts.length ∧
    ∀ (i : Nat) (t : T) (k : Obj), ts[i]? = some t → ks[i]? = some k → some i ≠ ex → Idle (fr i) t k

/-- Which assemblers can be handed out. -/
def freshAt (t : T) (ph : MaState) (s f i : Nat) : Bool :=
  match t.shape with
  | .struct _ => !s.testBit i || (decide (ph = .expectValue) && decide (i = f))
  | _ => true

structure Head (mk : Maybe) (o : Obj) (a : Frame) : Prop where
  ty : o.ty = a.ty
  mark : mk = a.m
  given : o.given = true
  begun : a.begun = true → o.begun = true
  ph : parts a.ty ≠ [] → o.ph = a.ph
  s : IsStruct a.ty → o.s = a.s
  f : a.ph = .expectValue ∨ a.ph = .midValue → IsStruct a.ty → o.f = a.f

/-- A place that nothing in `F` overlaps. -/
structure Own (μ : Mem) (p : Ptr) (F : Foot) : Prop where
  valid : Valid p.2 (μ.at' p.1)
  root : p.1 < μ.next
  out : ¬ F p.1

/-- What an assembler has written so far. -/
def Holds (μ : Mem) (w : Option Ptr) (t : T) (m : Maybe) (v : Val) (F : Foot) : Prop :=
  match w with
  | some p => Own μ p F ∧ RepT μ t v (μ.read p) F
  | none => IsStruct t ∧ m = .absent ∧ v = T.zero t

/-- How the assembler `k` of field `i` was handed out: where it writes and where its
mark `ck` is. -/
def Lent (fd : FieldT) (p : Ptr) (i : Nat) (x : Option MVal) (cm ck : Maybe) (k : Obj) (Gi H : Foot) : Prop :=
  if fd.required then k.w = some (p.1, p.2 ++ [i]) ∧ k.m = .parent ∧ cm = ck ∧ H = Gi
  else k.m = .mem (p.1, p.2 ++ [i]) ∧ cm = .absent ∧
    if FieldT.byRef fd then x = some (.maybe ck (.ref none)) ∧ (∀ r, H r → Gi r) ∧
      (∀ q, k.w = some q → q.2 = [] ∧ Gi q.1)
    else k.w = some (p.1, p.2 ++ [i, 0]) ∧ H = Gi ∧ ∃ y, x = some (.maybe ck y)

inductive Sim (μ : Mem) : Maybe → Obj → Frame → Foot → Prop where
  | rest {mk : Maybe} {o : Obj} {a : Frame} {F : Foot} : Head mk o a → a.child = none →
      a.ph ≠ .midValue → o.cm = .absent →
      Kids (freshAt a.ty a.ph a.s a.f) none (parts a.ty) o.kids →
      (∀ r, F r → r < μ.next) → Holds μ o.w a.ty a.m a.w F → Sim μ mk o a F
  | inList {mk : Maybe} {o : Obj} {a ch : Frame} {F : Foot} {e : T} {p : Ptr} {r cap : Nat} {vs : List Val}
      {xs : List MVal} {G : Nat → Foot} {k : Obj} : Head mk o a → a.ty.shape = .list e →
      a.child = some ch → a.ph = .midValue → o.kids = [k] → o.w = some p → (∀ r, F r → r < μ.next) →
      Own μ p F → a.w = .list vs → μ.read p = .slice r (vs.length + 1) cap → vs.length + 1 ≤ cap → F r →
      μ.at' r = .arr xs → vs.length + 1 ≤ xs.length → Apart G → (∀ i q, G i q → F q ∧ q ≠ r) →
      (∀ i v x, vs[i]? = some v → xs[i]? = some x → RepT μ e v x (G i)) →
      k.w = some (r, [vs.length]) → k.m = .parent → Sim μ o.cm k ch (G vs.length) → Sim μ mk o a F
  | inStruct {mk ck : Maybe} {o : Obj} {a ch : Frame} {F H : Foot} {fs : List FieldT} {fd : FieldT} {p : Ptr}
      {l : List (Option Val)} {xs : List MVal} {G : Nat → Foot} {k : Obj} : Head mk o a →
      a.ty.shape = .struct fs → a.child = some ch → a.ph = .midValue → fs[a.f]? = some fd →
      Kids (freshAt a.ty a.ph a.s a.f) (some a.f) (parts a.ty) o.kids → o.kids[a.f]? = some k →
      o.w = some p → (∀ r, F r → r < μ.next) → Own μ p F → a.w = .struct l → l.length = fs.length →
      μ.read p = .struct xs → xs.length = fs.length → Apart G → (∀ i q, G i q → F q) →
      (∀ i fd o x, i ≠ a.f → fs[i]? = some fd → l[i]? = some o → xs[i]? = some x →
        RepField (RepT μ) μ fd o x (G i)) → Lent fd p a.f (xs[a.f]?) o.cm ck k (G a.f) H →
      Sim μ ck k ch H → Sim μ mk o a F

theorem sim_head {μ : Mem} {mk : Maybe} {o : Obj} {a : Frame} {F : Foot} (h : Sim μ mk o a F) : Head mk o a := by
  cases h <;> assumption

theorem sim_foot {μ : Mem} {mk : Maybe} {o : Obj} {a : Frame} {F : Foot} (h : Sim μ mk o a F) :
    ∀ r, F r → r < μ.next := by
  cases h <;> assumption

theorem sim_own {μ : Mem} {mk : Maybe} {o : Obj} {a : Frame} {F : Foot} (h : Sim μ mk o a F) {p : Ptr}
    (hp : o.w = some p) : Own μ p F := by
  cases h with
  | rest _ _ _ _ _ _ h =>
    rw [hp] at h
    exact h.1
  | inList _ _ _ _ _ hw _ h =>
    rw [hp] at hw; cases hw
    exact h
  | inStruct _ _ _ _ _ _ _ hw _ h =>
    rw [hp] at hw; cases hw
    exact h

/-- What a call does to the memory. -/
structure Eff (μ μ' : Mem) (w w' : Option Ptr) (F F' : Foot) : Prop where
  next : μ.next ≤ μ'.next
  old : ∀ r, r < μ.next → ¬ F r → (∀ p, w = some p → r ≠ p.1) → μ'.at' r = μ.at' r
  place : ∀ p, w = some p → w' = some p ∧ μ'.at' p.1 = (μ.at' p.1).set p.2 (μ'.read p)
  made : w = none → w' = none ∨ ∃ r, w' = some (r, []) ∧ μ.next ≤ r
  foot : ∀ r, F' r → F r ∨ μ.next ≤ r

theorem eff_refl {μ : Mem} {mk : Maybe} {o : Obj} {a : Frame} {F : Foot} (h : Sim μ mk o a F) :
    Eff μ μ o.w o.w F F :=
  ⟨Nat.le_refl _, fun _ _ _ _ => rfl, fun p hp => ⟨hp, by
    rw [Mem.read, set_get (sim_own h hp).valid]⟩, fun h => Or.inl h, fun _ h => Or.inl h⟩

theorem eff_trans {μ μ1 μ2 : Mem} {w w1 w2 : Option Ptr} {F F1 F2 : Foot}
    (hv : ∀ p, w = some p → Valid p.2 (μ.at' p.1)) (h : Eff μ μ1 w w1 F F1) (h' : Eff μ1 μ2 w1 w2 F1 F2) :
    Eff μ μ2 w w2 F F2 := by
  refine ⟨Nat.le_trans h.next h'.next, fun r hr hF hw => ?_, fun p hp => ?_, fun hn => ?_, fun r hr => ?_⟩
  · rw [h'.old r (Nat.lt_of_lt_of_le hr h.next), h.old r hr hF hw]
    · intro h1
      rcases h.foot r h1 with h2 | h2
      · exact hF h2
      · omega
    · intro p hp
      cases hw0 : w with
      | none =>
        rcases h.made hw0 with h2 | ⟨q, h2, h3⟩
        · rw [h2] at hp; cases hp
        · rw [h2] at hp; cases hp
          simp only; omega
      | some q =>
        rw [(h.place q hw0).1] at hp
        cases hp
        exact hw _ hw0
  · obtain ⟨h1, h2⟩ := h.place p hp
    obtain ⟨h3, h4⟩ := h'.place p h1
    refine ⟨h3, ?_⟩
    rw [h4, h2, set_set (hv p hp)]
  · rcases h.made hn with h2 | ⟨q, h2, h3⟩
    · rcases h'.made h2 with h4 | ⟨q, h4, h5⟩
      · exact Or.inl h4
      · exact Or.inr ⟨q, h4, Nat.le_trans h.next h5⟩
    · exact Or.inr ⟨q, (h'.place _ h2).1, h3⟩
  · rcases h'.foot r hr with h2 | h2
    · exact h.foot r h2
    · exact Or.inr (Nat.le_trans h.next h2)

/-- A write to the assembler's own place. -/
theorem eff_write {μ : Mem} {p : Ptr} {F : Foot} (h : Own μ p F) (x : MVal) (F' : Foot)
    (hF : ∀ r, F' r → F r ∨ μ.next ≤ r) : Eff μ (μ.write p x) (some p) (some p) F F' := by
  refine ⟨Nat.le_refl _, fun r _ _ hw => write_other μ x (hw p rfl), fun q hq => ?_, (fun h => by cases h), hF⟩
  cases hq
  exact ⟨rfl, by rw [read_write h.valid, write_same]⟩

/-- Handing out an assembler. -/
theorem sim_fresh {μ : Mem} {t : T} {k : Obj} {w : Option Ptr} {F : Foot} (m : MarkAt) (h : Idle true t k)
    (hF : ∀ r, F r → r < μ.next) (hw : Holds μ w t .absent (T.zero t) F) :
    Sim μ .absent (k.lend w m) (fresh t) F := by
  obtain ⟨t', w', m', g, b, ph, s, f, cm, kids⟩ := k
  unfold Idle at h
  obtain ⟨rfl, rfl, h3, h4, h5⟩ := h
  rw [idleAll_iff] at h5
  refine .rest ⟨rfl, rfl, rfl, (fun h => by cases h), h3 rfl, h4 rfl, ?_⟩ rfl (by simp [fresh, Frame.ph]) rfl
    ⟨h5.1, fun i u k hu hk _ => idle_weaken (fun _ => rfl) _ _ (h5.2 i u k hu hk)⟩ hF hw
  intro h
  rcases h with h | h <;> cases h

/-- An assembler that has no child is not in use any more once it is done. -/
theorem sim_idle {μ : Mem} {mk : Maybe} {o : Obj} {a : Frame} {F : Foot} (h : Sim μ mk o a F)
    (hc : a.child = none) : Idle false a.ty o := by
  cases h with
  | rest h1 _ _ h4 h5 =>
    obtain ⟨t', w', m', g, b, ph, s, f, cm, kids⟩ := o
    unfold Idle
    refine ⟨h1.ty, h4, (fun h => by cases h), (fun h => by cases h), ?_⟩
    rw [idleAll_iff]
    exact ⟨h5.1, fun i u k hu hk => idle_weaken (fun h => by cases h) _ _ (h5.2 i u k hu hk (by simp))⟩
  | inList _ _ h => rw [hc] at h; cases h
  | inStruct _ _ h => rw [hc] at h; cases h

end Verif.Handles
