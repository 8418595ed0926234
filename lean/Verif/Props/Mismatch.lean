import Verif.Model.Builders
import Verif.Props.Robust
import Verif.Props.Dispatch
import Verif.Props.TreeHeap

/-!
# Decoding into a builder of the package (C44)
-/

namespace Verif.Props

open Verif Spec

theorem keys_ne {req opt : List Bytes} {es : List (Bytes × Node)} (h : KeysOk req opt es)
    (k : Bytes) (v : Node) (hm : (k, v) ∈ es) : k ∈ req ∨ k ∈ opt :=
  h.2.1 k (List.mem_map.2 ⟨(k, v), hm, rfl⟩)

theorem person_refuses (o : Obj) (p : PersonInfo) : ¬ PersonNode (.own o.own) p := by
  rintro ⟨es, he, hk, h1, -⟩
  cases o with
  | blob b => cases he
  | commit c => cases he; exact absurd (keys_ne hk b!"tree" _ List.mem_cons_self) (by decide)
  | tag c => cases he; exact absurd (keys_ne hk b!"object" _ List.mem_cons_self) (by decide)
  | tree t =>
    cases he
    obtain ⟨⟨k, v⟩, hm, hkk⟩ := List.mem_map.1 (hk.2.2 b!"date" (by decide))
    have := h1 v (by rw [← show k = b!"date" from hkk]; exact hm)
    obtain ⟨r, -, hr⟩ := List.mem_map.1 hm
    cases hr
    cases this.1

theorem treeEntry_refuses (o : Obj) (e : TreeEntry) : ¬ TreeEntryNode (.own o.own) e := by
  rintro ⟨es, he, hk, h1, -⟩
  cases o with
  | blob b => cases he
  | commit c => cases he; exact absurd (keys_ne hk b!"tree" _ List.mem_cons_self) (by decide)
  | tag c => cases he; exact absurd (keys_ne hk b!"object" _ List.mem_cons_self) (by decide)
  | tree t =>
    cases he
    obtain ⟨⟨k, v⟩, hm, hkk⟩ := List.mem_map.1 (hk.2.2 b!"mode" (by decide))
    have := h1 v (by rw [← show k = b!"mode" from hkk]; exact hm)
    obtain ⟨r, -, hr⟩ := List.mem_map.1 hm
    cases hr
    cases this.1

theorem tag_refuses (o : Obj) (t : Tag) (ho : ∀ t, o ≠ .tag t) : ¬ TagNode (.own o.own) t := by
  rintro ⟨es, he, hk, -, h1, -⟩
  cases o with
  | blob b => cases he
  | commit c => cases he; exact absurd (keys_ne hk b!"tree" _ List.mem_cons_self) (by decide)
  | tag c => exact ho c rfl
  | tree t =>
    cases he
    obtain ⟨⟨k, v⟩, hm, hkk⟩ := List.mem_map.1 (hk.2.2 b!"type" (by decide))
    have := h1 v (by rw [← show k = b!"type" from hkk]; exact hm)
    obtain ⟨r, -, hr⟩ := List.mem_map.1 hm
    cases hr
    cases this.1

theorem commit_refuses (o : Obj) (c : Commit) (ho : ∀ c, o ≠ .commit c) :
    ¬ CommitNode (.own o.own) c := by
  rintro ⟨es, he, hk, -, -, h1, -⟩
  cases o with
  | blob b => cases he
  | commit c => exact ho c rfl
  | tag c => cases he; exact absurd (keys_ne hk b!"object" _ List.mem_cons_self) (by decide)
  | tree t =>
    cases he
    obtain ⟨⟨k, v⟩, hm, hkk⟩ := List.mem_map.1 (hk.2.2 b!"message" (by decide))
    have := h1 v (by rw [← show k = b!"message" from hkk]; exact hm)
    obtain ⟨r, -, hr⟩ := List.mem_map.1 hm
    cases hr
    cases this.1

/-- An object of the same type is copied. -/
theorem assign_own (pol : TreeAsm → Nat) (o : Obj) :
    o.own.proto.assignNode pol (.own o.own) = .ok o.own := by
  cases o <;> rfl

/-- The error branch of a builder that neither accepts nor panics. -/
theorem err_of {α : Type} {r : Res α} (h1 : ∀ a, r ≠ .ok a) (h2 : r ≠ .panic) : ∃ e, r = .err e := by
  cases r with
  | ok a => exact absurd rfl (h1 a)
  | err e => exact ⟨e, rfl⟩
  | panic => exact absurd rfl h2

theorem bind_err_of {α β : Type} {r : Res α} {f : α → Res β} (h : ∃ e, r = .err e) :
    ∃ e, r >>= f = .err e := by
  obtain ⟨e, rfl⟩ := h
  exact ⟨e, rfl⟩

/-- The commit builder does not panic on the package's trees and tags. Where a
tree has an entry called author, the value is a tree entry, and its first key is
refused before anything is stored. -/
theorem build_commit_mismatch (o : Obj) (ho : ∀ c, o ≠ .commit c) :
    ∃ e, buildCommit (.own o.own) = .err e := by
  refine err_of (fun c h => commit_refuses o c ho (build_commit_sound h)) fun h => ?_
  obtain ⟨es, v, he, hv, -, k, x, r, hm, hk⟩ := build_commit_panic_cause h
  cases o with
  | blob b => cases he
  | commit c => exact ho c rfl
  | tag t =>
    cases he
    simp [Own.entries, Obj.own] at hv
  | tree t =>
    cases he
    have : ∃ e, v = .own (.treeEntry e) := by
      rcases hv with hv | hv <;>
      · obtain ⟨r, -, hr⟩ := List.mem_map.1 hv
        exact ⟨_, (congrArg Prod.snd hr).symm⟩
    obtain ⟨e, rfl⟩ := this
    cases hm
    exact absurd hk (by decide)

theorem build_tag_mismatch (o : Obj) (ho : ∀ c, o ≠ .tag c) :
    ∃ e, buildTag (.own o.own) = .err e :=
  err_of (fun c h => tag_refuses o c ho ((build_tag _ _).1 h)) (build_tag_no_panic _)

/-- Whether the builder of a prototype panics when it is given this object: only
the tree builder does, and only on commits and tags. -/
def Panics : Proto → Obj → Prop
  | .tree, .commit _ => True
  | .tree, .tag _ => True
  | _, _ => False

/-- A builder given an object of another type reports an error or panics. -/
theorem assign_mismatch (pol : TreeAsm → Nat) (P : Proto) (o : Obj) (h : o.own.proto ≠ P) :
    (Panics P o → P.assignNode pol (.own o.own) = .panic) ∧
    (¬ Panics P o → (∀ b, o ≠ .blob b) → ∃ e, P.assignNode pol (.own o.own) = .err e) := by
  constructor
  · intro hp
    cases P with
    | tree =>
      cases o with
      | commit c =>
        show (match TreeAsm.fresh.assignNode pol (.own (.commit c)) with
          | .ok s => Res.ok s.built | .err e _ => .err e | .panic => .panic) >>= _ = _
        rw [tree_assign_map_panics pol (.own (.commit c)) _ rfl (by simp [Own.entries])]
        rfl
      | tag c =>
        show (match TreeAsm.fresh.assignNode pol (.own (.tag c)) with
          | .ok s => Res.ok s.built | .err e _ => .err e | .panic => .panic) >>= _ = _
        rw [tree_assign_map_panics pol (.own (.tag c)) _ rfl (by simp [Own.entries])]
        rfl
      | _ => exact hp.elim
    | _ => exact hp.elim
  · intro hp hb
    cases P with
    | person =>
      exact bind_err_of (err_of (fun p h => person_refuses o p ((build_person _ _).1 h)) (build_person_no_panic _))
    | treeEntry =>
      exact bind_err_of (err_of (fun p h => treeEntry_refuses o p ((build_treeEntry _ _).1 h))
        (build_treeEntry_no_panic _))
    | tag => exact bind_err_of (build_tag_mismatch o (fun t ht => h (by rw [ht]; rfl)))
    | commit => exact bind_err_of (build_commit_mismatch o (fun t ht => h (by rw [ht]; rfl)))
    | tree =>
      cases o with
      | blob b => exact absurd rfl (hb b)
      | tree t => exact absurd rfl h
      | commit c => exact absurd trivial hp
      | tag t => exact absurd trivial hp
    | _ =>
      cases o with
      | blob b => exact absurd rfl (hb b)
      | _ => exact ⟨_, rfl⟩

/-- `Decode` into a fresh builder of the package, for every prototype and every
stream. If the stream holds an object of that type, the builder gets exactly that
object. If it holds an object of another type, the result is an error, except
that the tree builder panics on commits and tags. If it holds no object, the
error is that of `ParseObject`. -/
theorem decode_into (pol : TreeAsm → Nat) (P : Proto) (s : Stream) :
    (∀ o, parseObject s = .ok o →
      (o.own.proto = P → decode (P.sink pol) s = .ok o.own) ∧
      (o.own.proto ≠ P → Panics P o → decode (P.sink pol) s = .panic) ∧
      (o.own.proto ≠ P → ¬ Panics P o → ∃ e, decode (P.sink pol) s = .err e)) ∧
    (∀ e, parseObject s = .err e → decode (P.sink pol) s = .err e) := by
  rw [decode_parse]
  refine ⟨fun o ho => ?_, fun e he => by rw [he]; rfl⟩
  rw [ho]
  refine ⟨?_, ?_, ?_⟩
  · rintro rfl
    cases o <;> rfl
  · intro hne hp
    have := (assign_mismatch pol P o hne).1 hp
    cases o with
    | blob b => cases P <;> exact hp.elim
    | _ => exact this
  · intro hne hp
    cases o with
    | blob b =>
      cases P with
      | blob => exact absurd rfl hne
      | _ => exact ⟨_, rfl⟩
    | tree t => exact (assign_mismatch pol P (.tree t) hne).2 hp (fun b h => by cases h)
    | commit t => exact (assign_mismatch pol P (.commit t) hne).2 hp (fun b h => by cases h)
    | tag t => exact (assign_mismatch pol P (.tag t) hne).2 hp (fun b h => by cases h)

/-- No stream makes `Decode` panic unless the builder is a tree builder and the
stream is a commit or a tag, and whatever is accepted is the object in the stream
and has the type of the builder. Missing from the full promise: the tree builder
on commits and tags. -/
theorem decode_into_partial (pol : TreeAsm → Nat) (P : Proto) (s : Stream) (hN : 2 ≤ s.bufsz)
    (hf : s.fin ≠ .fuel) :
    (decode (P.sink pol) s = .panic → P = .tree ∧
      ((∃ c, parseObject s = .ok (.commit c)) ∨ ∃ t, parseObject s = .ok (.tag t))) ∧
    (∀ v, decode (P.sink pol) s = .ok v → v.proto = P ∧ ∃ o, parseObject s = .ok o ∧ v = o.own) := by
  have hd := decode_into pol P s
  cases ho : parseObject s with
  | ok o =>
    obtain ⟨h1, h2, h3⟩ := hd.1 o ho
    by_cases he : o.own.proto = P
    · rw [h1 he]
      refine ⟨(fun h => by cases h), fun v hv => ?_⟩
      cases hv
      exact ⟨he, o, rfl, rfl⟩
    · by_cases hp : Panics P o
      · rw [h2 he hp]
        refine ⟨fun _ => ?_, fun v hv => by cases hv⟩
        cases P with
        | tree =>
          refine ⟨rfl, ?_⟩
          cases o with
          | commit c => exact Or.inl ⟨c, rfl⟩
          | tag c => exact Or.inr ⟨c, rfl⟩
          | _ => exact hp.elim
        | _ => exact hp.elim
      · obtain ⟨e, h⟩ := h3 he hp
        rw [h]
        exact ⟨(fun h => by cases h), fun v hv => by cases hv⟩
  | err e =>
    rw [hd.2 e ho]
    exact ⟨(fun h => by cases h), fun v hv => by cases hv⟩
  | panic =>
    exact absurd ho (parse_no_panic s hN hf)

/-- A commit stream into a tag builder, a tree into a commit builder and a blob
into a tree builder are refused. -/
example (pol : TreeAsm → Nat) :
    decode (Proto.sink pol .tag) (⟨b!"commit 1\x00\nx\n", .eof, 4096⟩ : Stream) = .err .invalidKey ∧
    decode (Proto.sink pol .commit) (⟨b!"tree 0\x00", .eof, 4096⟩ : Stream) = .err .missingField ∧
    decode (Proto.sink pol .tree) (⟨b!"blob 1\x00x", .eof, 4096⟩ : Stream) = .err .wrongKind := by
  refine ⟨?_, ?_, ?_⟩ <;> rfl

/-- The promise in full fails: a small commit, decoded into a tree builder, makes
the program panic. -/
theorem decode_into_tree_panics (pol : TreeAsm → Nat) :
    decode (Proto.sink pol .tree) (⟨b!"commit 1\x00\nx\n", .eof, 4096⟩ : Stream) = .panic := by
  have : parseObject (⟨b!"commit 1\x00\nx\n", .eof, 4096⟩ : Stream) = .ok (.commit { Commit.zero with message := b!"x\n" }) := by
    decide +kernel
  exact ((decode_into pol .tree _).1 _ this).2.1 (by decide) trivial

end Verif.Props
