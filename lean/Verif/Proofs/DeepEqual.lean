import Verif.Model.DeepEqual
import Verif.Proofs.Gen

/-! Lemmas about `DeepEqual`. -/

namespace Verif

open Spec

theorem kind_string {n : Node} (h : n.kind = .string) : ∃ b, n.asString = .ok b := by
  cases n with
  | own v => cases v <;> first | (cases h; done) | exact ⟨_, rfl⟩
  | repr v => cases v <;> first | (cases h; done) | exact ⟨_, rfl⟩
  | str b => exact ⟨b, rfl⟩
  | _ => cases h

theorem kind_bytes {n : Node} (h : n.kind = .bytes) : ∃ b, n.asBytes = .ok b := by
  cases n with
  | own v => cases v <;> first | (cases h; done) | exact ⟨_, rfl⟩
  | repr v => cases v <;> first | (cases h; done) | exact ⟨_, rfl⟩
  | bytes b => exact ⟨b, rfl⟩
  | _ => cases h

theorem kind_link {n : Node} (h : n.kind = .link) : ∃ b, n.asLink = .ok b := by
  cases n with
  | own v => cases v <;> first | (cases h; done) | exact ⟨_, rfl⟩
  | repr v => cases v <;> first | (cases h; done) | exact ⟨_, rfl⟩
  | link b => exact ⟨b, rfl⟩
  | _ => cases h

/-- A list has an iterator, which yields as many elements as `Length` says. -/
theorem kind_list {n : Node} (h : n.kind = .list) : ∃ ns, n.listIterator = some ns ∧ n.len = ns.length := by
  cases n with
  | own v => cases v <;> first | (cases h; done) | exact ⟨_, rfl, by simp [Node.len, Own.length, Own.elems]⟩
  | repr v =>
    cases v <;> first | (cases h; done) | exact ⟨_, rfl, by simp [Node.len, Own.reprLength, Own.length, Own.reprElems]⟩
  | list ns => exact ⟨ns, rfl, rfl⟩
  | _ => cases h

/-- So does a map. -/
theorem kind_map {n : Node} (h : n.kind = .map) : ∃ es, n.mapIterator = some es ∧ n.len = es.length := by
  cases n with
  | own v => cases v <;> first | (cases h; done) | exact ⟨_, rfl, by simp [Node.len, Own.length, Own.entries]⟩
  | repr v =>
    cases v with
    | commit c =>
      refine ⟨_, rfl, ?_⟩
      cases h1 : c.author <;> cases h2 : c.committer <;> cases h3 : c.encoding <;> cases h4 : c.signature <;>
        simp [Node.len, Own.reprLength, Own.reprEntries, optEntry, h1, h2, h3, h4]
    | _ => first
      | (cases h; done)
      | exact ⟨_, rfl, by simp [Node.len, Own.reprLength, Own.length, Own.reprEntries]⟩
  | map ns => exact ⟨ns, rfl, rfl⟩
  | _ => cases h

theorem kind_absent {n : Node} (h : n.kind = .null) : n = .null ∨ n = .absent := by
  cases n with
  | null => exact .inl rfl
  | absent => exact .inr rfl
  | own v => cases v <;> cases h
  | repr v => cases v <;> cases h
  | _ => cases h

/-- The kind of a node from which data are read. -/
def dataKind : Data → Kind
  | .absent => .null
  | .str _ => .string
  | .bytes _ => .bytes
  | .link _ => .link
  | .list _ => .list
  | .map _ => .map

theorem reads_kind {n : Node} {d : Data} (h : Reads n d) : n.kind = dataKind d := by
  cases h with
  | absent => rfl
  | str h _ | bytes h _ | link h _ | list h _ _ | map h _ _ => exact h

theorem readsList_length {ns : List Node} {ds : List Data} (h : ReadsList ns ds) : ns.length = ds.length := by
  induction ns generalizing ds with
  | nil => cases h; rfl
  | cons n ns ih =>
    cases h with
    | cons _ h2 => rw [List.length_cons, List.length_cons, ih h2]

theorem readsMap_length {ns : List (Bytes × Node)} {ds : List (Bytes × Data)} (h : ReadsMap ns ds) :
    ns.length = ds.length := by
  induction ns generalizing ds with
  | nil => cases h; rfl
  | cons n ns ih =>
    cases h with
    | cons _ h2 => rw [List.length_cons, List.length_cons, ih h2]

mutual

theorem deepEqual_reads {n : Node} {d : Data} (h : Reads n d) (m : Node) :
    ∃ f₀ b, (b = true ↔ Reads m d) ∧ ∀ f, f₀ ≤ f → deepEqual f n m = .ok b := by
  by_cases hk : n.kind = m.kind
  case neg =>
    refine ⟨1, false, ⟨fun h => (by cases h), fun h' => ?_⟩, fun f hf => ?_⟩
    · rw [reads_kind h, reads_kind h'] at hk
      exact absurd rfl hk
    · obtain ⟨f, rfl⟩ : ∃ g, f = g + 1 := ⟨f - 1, by omega⟩
      rw [deepEqual, if_pos hk]
  case pos =>
  cases h with
  | absent =>
    refine ⟨1, !m.isNull, ?_, fun f hf => ?_⟩
    · rcases kind_absent (n := m) hk.symm with rfl | rfl
      · exact ⟨fun h => (by cases h), fun h => (by cases h <;> rename_i h _ <;> cases h)⟩
      · exact ⟨fun _ => .absent, fun _ => rfl⟩
    · obtain ⟨f, rfl⟩ : ∃ g, f = g + 1 := ⟨f - 1, by omega⟩
      rw [deepEqual, if_neg (fun h => h hk)]
      cases m.isNull <;> rfl
  | str h1 h2 =>
    rename_i a
    obtain ⟨b, hb⟩ := kind_string (hk.symm.trans h1)
    refine ⟨1, a == b, ?_, fun f hf => ?_⟩
    · rw [beq_iff_eq]
      constructor
      · rintro rfl
        exact .str (hk.symm.trans h1) hb
      · intro h'
        cases h' with
        | str _ h3 => rw [hb] at h3; cases h3; rfl
    · obtain ⟨f, rfl⟩ : ∃ g, f = g + 1 := ⟨f - 1, by omega⟩
      rw [deepEqual, if_neg (fun h => h hk), h1]
      simp only [h2, hb, orPanic, Res.bind_ok]
  | bytes h1 h2 =>
    rename_i a
    obtain ⟨b, hb⟩ := kind_bytes (hk.symm.trans h1)
    refine ⟨1, a == b, ?_, fun f hf => ?_⟩
    · rw [beq_iff_eq]
      constructor
      · rintro rfl
        exact .bytes (hk.symm.trans h1) hb
      · intro h'
        cases h' with
        | bytes _ h3 => rw [hb] at h3; cases h3; rfl
    · obtain ⟨f, rfl⟩ : ∃ g, f = g + 1 := ⟨f - 1, by omega⟩
      rw [deepEqual, if_neg (fun h => h hk), h1]
      simp only [h2, hb, orPanic, Res.bind_ok]
  | link h1 h2 =>
    rename_i a
    obtain ⟨b, hb⟩ := kind_link (hk.symm.trans h1)
    refine ⟨1, a == b, ?_, fun f hf => ?_⟩
    · rw [beq_iff_eq]
      constructor
      · rintro rfl
        exact .link (hk.symm.trans h1) hb
      · intro h'
        cases h' with
        | link _ h3 => rw [hb] at h3; cases h3; rfl
    · obtain ⟨f, rfl⟩ : ∃ g, f = g + 1 := ⟨f - 1, by omega⟩
      rw [deepEqual, if_neg (fun h => h hk), h1]
      simp only [h2, hb, orPanic, Res.bind_ok]
  | list h1 h2 h3 =>
    rename_i ns ds
    obtain ⟨ms, hm, hl⟩ := kind_list (hk.symm.trans h1)
    obtain ⟨ns', hn, hl'⟩ := kind_list h1
    rw [h2] at hn
    cases hn
    by_cases hlen : ns.length = ms.length
    · obtain ⟨f₀, b, hb, hf₀⟩ := eqElems_reads h3 ms hlen
      refine ⟨f₀ + 1, b, hb.trans ⟨fun h => .list (hk.symm.trans h1) hm h, fun h => ?_⟩, fun f hf => ?_⟩
      · cases h with
        | list _ h4 h5 => rw [hm] at h4; cases h4; exact h5
      · obtain ⟨f, rfl⟩ : ∃ g, f = g + 1 := ⟨f - 1, by omega⟩
        rw [deepEqual, if_neg (fun h => h hk), h1]
        simp only
        rw [if_neg (by rw [hl, hl', hlen]; exact fun h => h rfl), h2, hm]
        exact hf₀ f (by omega)
    · refine ⟨1, false, ⟨fun h => (by cases h), fun h => ?_⟩, fun f hf => ?_⟩
      · cases h with
        | list _ h4 h5 =>
          rw [hm] at h4
          cases h4
          exact absurd ((readsList_length h3).trans (readsList_length h5).symm) hlen
      · obtain ⟨f, rfl⟩ : ∃ g, f = g + 1 := ⟨f - 1, by omega⟩
        rw [deepEqual, if_neg (fun h => h hk), h1]
        simp only
        rw [if_pos (by rw [hl, hl']; intro h; exact hlen (by exact_mod_cast h))]
  | map h1 h2 h3 =>
    rename_i ns ds
    obtain ⟨ms, hm, hl⟩ := kind_map (hk.symm.trans h1)
    obtain ⟨ns', hn, hl'⟩ := kind_map h1
    rw [h2] at hn
    cases hn
    by_cases hlen : ns.length = ms.length
    · obtain ⟨f₀, b, hb, hf₀⟩ := eqEntries_reads h3 ms hlen
      refine ⟨f₀ + 1, b, hb.trans ⟨fun h => .map (hk.symm.trans h1) hm h, fun h => ?_⟩, fun f hf => ?_⟩
      · cases h with
        | map _ h4 h5 => rw [hm] at h4; cases h4; exact h5
      · obtain ⟨f, rfl⟩ : ∃ g, f = g + 1 := ⟨f - 1, by omega⟩
        rw [deepEqual, if_neg (fun h => h hk), h1]
        simp only
        rw [if_neg (by rw [hl, hl', hlen]; exact fun h => h rfl), h2, hm]
        exact hf₀ f (by omega)
    · refine ⟨1, false, ⟨fun h => (by cases h), fun h => ?_⟩, fun f hf => ?_⟩
      · cases h with
        | map _ h4 h5 =>
          rw [hm] at h4
          cases h4
          exact absurd ((readsMap_length h3).trans (readsMap_length h5).symm) hlen
      · obtain ⟨f, rfl⟩ : ∃ g, f = g + 1 := ⟨f - 1, by omega⟩
        rw [deepEqual, if_neg (fun h => h hk), h1]
        simp only
        rw [if_pos (by rw [hl, hl']; intro h; exact hlen (by exact_mod_cast h))]

theorem eqElems_reads {ns : List Node} {ds : List Data} (h : ReadsList ns ds) (ms : List Node)
    (hl : ns.length = ms.length) :
    ∃ f₀ b, (b = true ↔ ReadsList ms ds) ∧ ∀ f, f₀ ≤ f → eqElems (deepEqual f) ns ms = .ok b := by
  cases h with
  | nil =>
    have : ms = [] := List.length_eq_zero_iff.1 hl.symm
    subst this
    exact ⟨0, true, ⟨fun _ => .nil, fun _ => rfl⟩, fun f _ => rfl⟩
  | cons h1 h2 =>
    cases ms with
    | nil => simp at hl
    | cons m ms =>
      obtain ⟨f₁, b₁, hb₁, hf₁⟩ := deepEqual_reads h1 m
      obtain ⟨f₂, b₂, hb₂, hf₂⟩ := eqElems_reads h2 ms (by simpa using hl)
      refine ⟨max f₁ f₂, b₁ && b₂, ?_, fun f hf => ?_⟩
      · rw [Bool.and_eq_true, hb₁, hb₂]
        exact ⟨fun ⟨h, h'⟩ => .cons h h', fun h => by cases h with | cons h h' => exact ⟨h, h'⟩⟩
      · rw [eqElems, hf₁ f (by omega), Res.bind_ok]
        cases b₁ with
        | false => rfl
        | true => exact hf₂ f (by omega)

theorem eqEntries_reads {ns : List (Bytes × Node)} {ds : List (Bytes × Data)} (h : ReadsMap ns ds)
    (ms : List (Bytes × Node)) (hl : ns.length = ms.length) :
    ∃ f₀ b, (b = true ↔ ReadsMap ms ds) ∧ ∀ f, f₀ ≤ f → eqEntries (deepEqual f) ns ms = .ok b := by
  cases h with
  | nil =>
    have : ms = [] := List.length_eq_zero_iff.1 hl.symm
    subst this
    exact ⟨0, true, ⟨fun _ => .nil, fun _ => rfl⟩, fun f _ => rfl⟩
  | cons h1 h2 =>
    rename_i k _ _ _ _
    cases ms with
    | nil => simp at hl
    | cons m ms =>
      obtain ⟨l, m⟩ := m
      by_cases hkl : k = l
      · subst hkl
        obtain ⟨f₁, b₁, hb₁, hf₁⟩ := deepEqual_reads h1 m
        obtain ⟨f₂, b₂, hb₂, hf₂⟩ := eqEntries_reads h2 ms (by simpa using hl)
        refine ⟨max f₁ f₂, b₁ && b₂, ?_, fun f hf => ?_⟩
        · rw [Bool.and_eq_true, hb₁, hb₂]
          exact ⟨fun ⟨h, h'⟩ => .cons h h', fun h => by cases h with | cons h h' => exact ⟨h, h'⟩⟩
        · rw [eqEntries, if_pos rfl, hf₁ f (by omega), Res.bind_ok]
          cases b₁ with
          | false => rfl
          | true => exact hf₂ f (by omega)
      · refine ⟨0, false, ⟨fun h => (by cases h), fun h => ?_⟩, fun f _ => ?_⟩
        · cases h with
          | cons _ _ => exact absurd rfl hkl
        · rw [eqEntries, if_neg hkl]

end

end Verif
