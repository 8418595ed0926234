import Verif.Spec.Alias
import Verif.Proofs.Bufio

/-!
# Slices of the buffer are used only while they are valid
-/

namespace Verif

open LineReader Spec

theorem Res.bind_assoc {α β γ : Type} (a : Res α) (f : α → Res β) (g : β → Res γ) :
    ((a >>= f) >>= g) = (a >>= fun x => f x >>= g) := by cases a <;> rfl

namespace Alias

section

variable {σ : Type} [LineReader σ] (L : LawfulLines σ)
include L

theorem readLine_cases (s : σ) :
    (∃ l s', readSliceLine s = .ok (l, s') ∧ Reader.readLine s = .ok (view s' l, s')) ∨
    (∃ e, readSliceLine s = .err e ∧ Reader.readLine s = .err e) ∨
    (readSliceLine s = .panic ∧ Reader.readLine s = .panic) := by
  have := L s
  cases h : readSliceLine s with
  | ok p => rw [h] at this; exact .inl ⟨p.1, p.2, rfl, this⟩
  | err e => rw [h] at this; exact .inr (.inl ⟨e, rfl, this⟩)
  | panic => rw [h] at this; exact .inr (.inr ⟨rfl, this⟩)

omit L in
theorem tagLine_eq (out : Tag) (l : Slice) (s : σ) :
    Alias.tagLine out l s = Verif.tagLine out (view s l) s := rfl

theorem tagLoop_eq (f : Nat) (out : Tag) (s : σ) : Alias.tagLoop f out s = Verif.tagLoop f out s := by
  induction f generalizing out s with
  | zero => rfl
  | succ f ih =>
    unfold Alias.tagLoop Verif.tagLoop
    rcases readLine_cases L s with ⟨l, s', h1, h2⟩ | ⟨e, h1, h2⟩ | ⟨h1, h2⟩
    · rw [h1, h2]
      simp only [tagLine_eq, ih]
    · rw [h1, h2]; cases e <;> rfl
    · rw [h1, h2]

theorem decodeTag_eq (s : σ) : Alias.decodeTag s = Verif.decodeTag s := by
  unfold Alias.decodeTag Verif.decodeTag
  simp only [tagLoop_eq L]

theorem mergeMsgLoop_eq (f : Nat) (m : Bytes) (s : σ) :
    Verif.mergeMsgLoop f m s =
      (Alias.mergeMsgLoop f m s >>= fun p => .ok ((p.1.1, view p.2 p.1.2), p.2)) := by
  induction f generalizing m s with
  | zero => rfl
  | succ f ih =>
    unfold Alias.mergeMsgLoop Verif.mergeMsgLoop
    rcases readLine_cases L s with ⟨l, s', h1, h2⟩ | ⟨e, h1, h2⟩ | ⟨h1, h2⟩
    · rw [h1, h2]
      simp only
      split
      · rfl
      · exact ih _ _
    · rw [h1, h2]; rfl
    · rw [h1, h2]; rfl

theorem mergeTagLoop_eq (f : Nat) (o : Tag) (s : σ) :
    Verif.mergeTagLoop f o s =
      (Alias.mergeTagLoop f o s >>= fun p => .ok ((p.1.1, p.1.2.map (view p.2)), p.2)) := by
  induction f generalizing o s with
  | zero => rfl
  | succ f ih =>
    unfold Alias.mergeTagLoop Verif.mergeTagLoop
    rcases readLine_cases L s with ⟨l, s', h1, h2⟩ | ⟨e, h1, h2⟩ | ⟨h1, h2⟩
    · rw [h1, h2]
      simp only
      split
      · simp only [Res.bind_assoc, ih]
      · split
        · simp only [Res.bind_assoc, ih]
        · split
          · simp only [Res.bind_assoc, ih]
          · split
            · rw [mergeMsgLoop_eq L]
              simp only [Res.bind_assoc, Res.bind_ok, Option.map_some]
            · exact ih _ _
    · rw [h1, h2]
      cases e <;> rfl
    · rw [h1, h2]; rfl

theorem readMergeTag_eq (x : Bytes) (s : σ) :
    Verif.readMergeTag x s =
      (Alias.readMergeTag x s >>= fun p => .ok ((p.1.1, p.1.2.map (view p.2)), p.2)) := by
  unfold Alias.readMergeTag Verif.readMergeTag
  simp only [mergeTagLoop_eq L, Res.bind_assoc]

theorem sigLoop_eq (f : Nat) (m : Bytes) (s : σ) : Alias.sigLoop f m s = Verif.sigLoop f m s := by
  induction f generalizing m s with
  | zero => rfl
  | succ f ih =>
    unfold Alias.sigLoop Verif.sigLoop
    rcases readLine_cases L s with ⟨l, s', h1, h2⟩ | ⟨e, h1, h2⟩ | ⟨h1, h2⟩
    · rw [h1, h2]
      simp only [ih]
    · rw [h1, h2]
    · rw [h1, h2]

theorem decodeGpgSig_eq' (s : σ) : Alias.decodeGpgSig s = Verif.decodeGpgSig s := by
  unfold Alias.decodeGpgSig Verif.decodeGpgSig
  rw [L]
  simp only [Res.bind_assoc, Res.bind_ok, sigLoop_eq L]

theorem commitLine_eq (f : Nat) (c : Commit) (l : Slice) (s : σ) :
    Alias.commitLine f c l s = Verif.commitLine f c (view s l) s := by
  induction f generalizing c l s with
  | zero => rfl
  | succ f ih =>
    unfold Alias.commitLine Verif.commitLine
    simp only [readMergeTag_eq L, decodeGpgSig_eq' L, Res.bind_assoc, Res.bind_ok]
    congr 7
    funext h
    congr 1
    funext sha
    congr 1
    funext p
    cases hp : p.1.2 with
    | none => rfl
    | some x => exact ih _ _ _

theorem commitLoop_eq (f : Nat) (c : Commit) (s : σ) : Alias.commitLoop f c s = Verif.commitLoop f c s := by
  induction f generalizing c s with
  | zero => rfl
  | succ f ih =>
    unfold Alias.commitLoop Verif.commitLoop
    rcases readLine_cases L s with ⟨l, s', h1, h2⟩ | ⟨e, h1, h2⟩ | ⟨h1, h2⟩
    · rw [h1, h2]
      simp only [commitLine_eq L, ih]
    · rw [h1, h2]; cases e <;> rfl
    · rw [h1, h2]

theorem decodeCommit_eq' (s : σ) : Alias.decodeCommit s = Verif.decodeCommit s := by
  unfold Alias.decodeCommit Verif.decodeCommit
  simp only [commitLoop_eq L]

theorem decode_eq {β : Type} (na : Sink β) (s : σ) : Alias.decode na s = Verif.decode na s := by
  unfold Alias.decode Verif.decode
  simp only [decodeCommit_eq' L, decodeTag_eq L]

theorem parseObject_eq (s : σ) : Alias.parseObject s = Verif.parseObject s := by
  unfold Alias.parseObject
  rw [decode_eq L]
  rfl

end

end Alias

end Verif
