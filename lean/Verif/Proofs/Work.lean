import Verif.Model.Work
import Verif.Proofs.Growth
import Verif.Proofs.Reserve
import Verif.Proofs.Alias

/-!
# What counting does to the results, and bounds on the count
-/

namespace Verif

open Spec

/-! ## the results are those of the decoders -/

@[simp] theorem Work.lift_res {α : Type} (r : Res α) : (Work.lift r).res = r := rfl
@[simp] theorem Work.spend_res {α : Type} (n : Nat) (r : Res α) : (Work.spend n r).res = r := rfl
@[simp] theorem Work.lift_cost {α : Type} (r : Res α) : (Work.lift r).cost = 0 := rfl
@[simp] theorem Work.spend_cost {α : Type} (n : Nat) (r : Res α) : (Work.spend n r).cost = n := rfl

@[simp] theorem Work.bind_res {α β : Type} (x : Work α) (f : α → Work β) :
    (x.bind f).res = x.res >>= fun a => (f a).res := by
  unfold Work.bind
  split <;> rename_i h <;> rw [h] <;> rfl

@[simp] theorem lineW_res {σ : Type} [Reader σ] (s : σ) : (lineW s).res = Reader.readLine s := rfl
@[simp] theorem stringW_res {σ : Type} [Reader σ] (d : UInt8) (s : σ) :
    (stringW d s).res = Reader.readString d s := rfl
@[simp] theorem allW_res {σ : Type} [Reader σ] (s : σ) : (allW s).res = Reader.readAll s := rfl
@[simp] theorem hexW_res (h : Bytes) : (hexW h).res = hexDecode h := rfl
@[simp] theorem cidW_res (h : Bytes) : (cidW h).res = shaToCid h := rfl
@[simp] theorem tailW_res (l : Bytes) (n : Nat) : (tailW l n).res = sliceFrom l n := rfl

/-- The new capacity. -/
def newCap (grow : Nat → Nat → Nat) (len cap k : Nat) : Nat :=
  if len + k ≤ cap then cap else grow cap (len + k)

@[simp] theorem pushW_res (grow : Nat → Nat → Nat) (len cap k : Nat) :
    (pushW grow len cap k).res = .ok (newCap grow len cap k) := by
  unfold pushW newCap; split <;> rfl

theorem nameLoopW_res (ps : List Bytes) (n : Bytes) : (nameLoopW ps n).res = nameLoop ps n := by
  induction ps generalizing n with
  | nil => rfl
  | cons p ps ih =>
    unfold nameLoopW nameLoop
    split
    · simp only [Work.bind_res, Work.lift_res]
      congr 1
      funext c
      split
      · rfl
      · simp [ih]
    · split <;> simp [ih]

theorem emailLoopW_res (grow : Nat → Nat → Nat) (ps : List Bytes) (n : Bytes) (cap : Nat) :
    (emailLoopW grow ps n cap).res = emailLoop ps n := by
  induction ps generalizing n cap with
  | nil => rfl
  | cons p ps ih =>
    unfold emailLoopW emailLoop
    simp only [Work.bind_res, Work.lift_res]
    congr 1
    funext q
    split
    · simp only [Work.bind_res, Work.lift_res]
      congr 1
      funext c
      split
      · simp
      · simp [ih]
    · simp [ih]

theorem parsePersonInfoW_res (grow : Nat → Nat → Nat) (l : Bytes) :
    (parsePersonInfoW grow l).res = parsePersonInfo l := by
  unfold parsePersonInfoW parsePersonInfo
  simp only [Work.bind_res, Work.spend_res, Res.bind_ok]
  split
  · rfl
  · simp only [Work.bind_res, Work.spend_res, Work.lift_res, nameLoopW_res, emailLoopW_res]

section
variable {σ : Type} [Reader σ]

theorem readNumW_res (s : σ) : (readNumW s).res = readNum s := by
  unfold readNumW readNum
  simp only [Work.bind_res, Work.lift_res, Work.spend_res, stringW_res]

theorem decodeBlobW_res (s : σ) : (decodeBlobW s).res = decodeBlob s := by
  unfold decodeBlobW decodeBlob
  simp only [Work.bind_res, readNumW_res]
  congr 1
  funext p
  split
  · rfl
  · simp only [Work.bind_res, Work.spend_res, Res.bind_ok]
    congr 1
    funext q
    split
    · split <;> rfl
    · rfl

theorem decodeTreeEntryW_res (s : σ) : (decodeTreeEntryW s).res = decodeTreeEntry s := by
  unfold decodeTreeEntryW decodeTreeEntry
  simp only [Work.bind_res, Work.lift_res, Work.spend_res, stringW_res, cidW_res]

theorem treeLoopW_res (grow : Nat → Nat → Nat) (f : Nat) (t : Tree) (cap : Nat) (s : σ) :
    (treeLoopW grow f t cap s).res = treeLoop f t s := by
  induction f generalizing t cap s with
  | zero => rfl
  | succ f ih =>
    unfold treeLoopW treeLoop
    rw [decodeTreeEntryW_res]
    generalize decodeTreeEntry s = r
    cases r with
    | err e => cases e <;> rfl
    | panic => rfl
    | ok p => simp [ih]

theorem decodeTreeW_res (grow : Nat → Nat → Nat) (s : σ) : (decodeTreeW grow s).res = decodeTree s := by
  unfold decodeTreeW decodeTree
  simp only [Work.bind_res, readNumW_res, treeLoopW_res]

theorem tagLineW_res (grow : Nat → Nat → Nat) (o : Tag) (l : Bytes) (s : σ) :
    (tagLineW grow o l s).res = tagLine o l s := by
  unfold tagLineW tagLine
  repeat' split
  all_goals simp only [Work.bind_res, Work.lift_res, Work.spend_res, hexW_res, cidW_res, tailW_res,
    allW_res, parsePersonInfoW_res]

theorem tagLoopW_res (grow : Nat → Nat → Nat) (f : Nat) (o : Tag) (s : σ) :
    (tagLoopW grow f o s).res = tagLoop f o s := by
  induction f generalizing o s with
  | zero => rfl
  | succ f ih =>
    unfold tagLoopW tagLoop
    rw [lineW_res]
    generalize Reader.readLine s = r
    cases r with
    | err e => cases e <;> rfl
    | panic => rfl
    | ok p => simp [ih, tagLineW_res]

theorem decodeTagW_res (grow : Nat → Nat → Nat) (s : σ) : (decodeTagW grow s).res = decodeTag s := by
  unfold decodeTagW decodeTag
  simp only [Work.bind_res, stringW_res, tagLoopW_res]

theorem mergeMsgLoopW_res (grow : Nat → Nat → Nat) (f : Nat) (m : Bytes) (cap : Nat) (s : σ) :
    (mergeMsgLoopW grow f m cap s).res = mergeMsgLoop f m s := by
  induction f generalizing m cap s with
  | zero => rfl
  | succ f ih =>
    unfold mergeMsgLoopW mergeMsgLoop
    rw [Work.bind_res, lineW_res]
    split <;> rename_i h <;> rw [h]
    · rfl
    · rfl
    · simp only [Res.bind_ok]
      split <;> simp [ih]

theorem mergeTagLoopW_res (grow : Nat → Nat → Nat) (f : Nat) (o : Tag) (s : σ) :
    (mergeTagLoopW grow f o s).res = mergeTagLoop f o s := by
  induction f generalizing o s with
  | zero => rfl
  | succ f ih =>
    unfold mergeTagLoopW mergeTagLoop
    rw [lineW_res]
    generalize Reader.readLine s = r
    cases r with
    | err e => cases e <;> rfl
    | panic => rfl
    | ok p =>
      simp only [Work.bind_res, Work.spend_res, Res.bind_ok]
      repeat' split
      all_goals simp [ih, parsePersonInfoW_res, mergeMsgLoopW_res]

theorem readMergeTagW_res (grow : Nat → Nat → Nat) (h : Bytes) (s : σ) :
    (readMergeTagW grow h s).res = readMergeTag h s := by
  unfold readMergeTagW readMergeTag
  simp only [Work.bind_res, cidW_res, mergeTagLoopW_res]

theorem sigLoopW_res (grow : Nat → Nat → Nat) (f : Nat) (m : Bytes) (cap : Nat) (s : σ) :
    (sigLoopW grow f m cap s).res = sigLoop f m s := by
  induction f generalizing m cap s with
  | zero => rfl
  | succ f ih =>
    unfold sigLoopW sigLoop
    rw [Work.bind_res, lineW_res]
    split <;> rename_i h <;> rw [h]
    · rfl
    · rfl
    · simp only [Res.bind_ok]
      split <;> simp [ih]

theorem decodeGpgSigW_res (grow : Nat → Nat → Nat) (s : σ) :
    (decodeGpgSigW grow s).res = decodeGpgSig s := by
  unfold decodeGpgSigW decodeGpgSig
  simp only [Work.bind_res, Work.spend_res, lineW_res, pushW_res, Res.bind_ok, sigLoopW_res]

theorem commitLineW_res (grow : Nat → Nat → Nat) (f : Nat) (c : Commit) (m : Room) (l : Bytes) (s : σ) :
    ((commitLineW grow f c m l s).res >>= fun p => .ok (p.1.1, p.2)) = commitLine f c l s := by
  induction f generalizing c m l s with
  | zero => rfl
  | succ f ih =>
    unfold commitLineW commitLine
    repeat' split
    all_goals simp only [Work.bind_res, Work.lift_res, Work.spend_res, hexW_res, cidW_res, tailW_res,
      allW_res, parsePersonInfoW_res, pushW_res, Res.bind_ok, decodeGpgSigW_res, readMergeTagW_res,
      Res.bind_assoc]
    congr 1; funext h
    congr 1; funext sha
    congr 1; funext p
    obtain ⟨⟨mt, r⟩, t⟩ := p
    cases r with
    | none => rfl
    | some x => exact ih _ _ _ _

theorem commitLoopW_res (grow : Nat → Nat → Nat) (f : Nat) (c : Commit) (m : Room) (s : σ) :
    (commitLoopW grow f c m s).res = commitLoop f c s := by
  induction f generalizing c m s with
  | zero => rfl
  | succ f ih =>
    unfold commitLoopW commitLoop
    rw [lineW_res]
    generalize Reader.readLine s = r
    cases r with
    | err e => cases e <;> rfl
    | panic => rfl
    | ok p =>
      simp only [Work.bind_res, Work.spend_res, Res.bind_ok]
      rw [← commitLineW_res grow _ c m]
      simp only [Res.bind_assoc, Res.bind_ok, ih]

theorem decodeCommitW_res (grow : Nat → Nat → Nat) (s : σ) :
    (decodeCommitW grow s).res = decodeCommit s := by
  unfold decodeCommitW decodeCommit
  simp only [Work.bind_res, readNumW_res, commitLoopW_res]

theorem parseObjectW_res (grow : Nat → Nat → Nat) (s : σ) :
    (parseObjectW grow s).res = parseObject s := by
  unfold parseObjectW parseObject typeW
  simp only [Work.bind_res, Work.spend_res]
  congr 1
  funext p
  repeat' split
  all_goals simp only [Work.bind_res, Work.lift_res, decodeTreeW_res, decodeCommitW_res,
    decodeBlobW_res, decodeTagW_res]

end

end Verif
