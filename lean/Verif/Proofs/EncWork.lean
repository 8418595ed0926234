import Verif.Spec.EncWork
import Verif.Proofs.WorkBound
import Verif.Proofs.Alias

/-!
# The counting encoders write what the encoders write, and how much they do
-/

namespace Verif

open Spec

/-- The step appends what `r` says. -/
def Writes (x : Work OutBuf) (b : OutBuf) (r : Res Bytes) : Prop :=
  match r with
  | .ok y => ∃ cap, x.res = .ok ⟨b.bytes ++ y, cap⟩
  | .err e => x.res = .err e
  | .panic => x.res = .panic

/-- The buffer has room for what is in it. -/
def OutBuf.Ok (b : OutBuf) : Prop := b.bytes.length ≤ b.cap

/-- What the buffer has saved. -/
def OutBuf.slack (b : OutBuf) : Nat := Verif.slack b.bytes.length b.cap

/-- Every byte that is appended pays 31. -/
def Pays (x : Work OutBuf) (b : OutBuf) : Prop :=
  b.Ok → ∀ b', x.res = .ok b' → b'.Ok ∧ x.cost + b'.slack + 31 * b.bytes.length ≤ b.slack + 31 * b'.bytes.length

theorem Work.bind_inv {α β : Type} {x : Work α} {f : α → Work β} {c : β} (h : (x.bind f).res = .ok c) :
    ∃ a, x.res = .ok a ∧ (f a).res = .ok c ∧ (x.bind f).cost = x.cost + (f a).cost := by
  unfold Work.bind at h ⊢
  cases hx : x.res with
  | ok a => rw [hx] at h; exact ⟨a, rfl, h, rfl⟩
  | err e => rw [hx] at h; simp at h
  | panic => rw [hx] at h; simp at h

theorem Writes.bind {x : Work OutBuf} {f : OutBuf → Work OutBuf} {b : OutBuf} {r r' : Res Bytes} (h : Writes x b r)
    (hf : ∀ b', Writes (f b') b' r') : Writes (x.bind f) b (r >>= fun y => r' >>= fun z => .ok (y ++ z)) := by
  cases r with
  | err e => simp only [Writes, Work.bind_res] at h ⊢; rw [h]; rfl
  | panic => simp only [Writes, Work.bind_res] at h ⊢; rw [h]; rfl
  | ok y =>
    obtain ⟨cap, h⟩ := h
    have h2 := hf ⟨b.bytes ++ y, cap⟩
    cases r' with
    | err e => simp only [Writes, Work.bind_res, Res.bind_ok] at h2 ⊢; rw [h]; exact h2
    | panic => simp only [Writes, Work.bind_res, Res.bind_ok] at h2 ⊢; rw [h]; exact h2
    | ok z =>
      obtain ⟨cap', h2⟩ := h2
      refine ⟨cap', ?_⟩
      rw [Work.bind_res, h, Res.bind_ok, h2, List.append_assoc]

theorem Writes.nil (b : OutBuf) : Writes (.lift (.ok b)) b (.ok []) := ⟨b.cap, by simp [Work.lift]⟩

theorem Pays.bind {x : Work OutBuf} {f : OutBuf → Work OutBuf} {b : OutBuf} (h : Pays x b) (hf : ∀ b', Pays (f b') b') :
    Pays (x.bind f) b := by
  intro hb c hc
  obtain ⟨a, ha, hfa, hcost⟩ := Work.bind_inv hc
  obtain ⟨h1, h2⟩ := h hb a ha
  obtain ⟨h3, h4⟩ := hf a h1 c hfa
  exact ⟨h3, by omega⟩

theorem Pays.nil (b : OutBuf) : Pays (.lift (.ok b)) b := by
  intro hb c hc
  have : b = c := Res.ok.inj hc
  subst this
  exact ⟨hb, by simp [Work.lift]⟩

theorem Pays.panic (b : OutBuf) : Pays (.lift .panic) b := by
  intro _ c hc
  simp [Work.lift] at hc

/-! ## fmt -/

theorem push_res (grow : Nat → Nat → Nat) (len cap k : Nat) : ∃ c, (pushW grow len cap k).res = .ok c := by
  unfold pushW
  split <;> exact ⟨_, rfl⟩

theorem fmtW_res (grow : Nat → Nat → Nat) (ps : List Bytes) (b : Bytes) (cap : Nat) :
    (fmtW grow ps b cap).res = .ok (b ++ ps.flatten) := by
  induction ps generalizing b cap with
  | nil => simp [fmtW, Work.lift]
  | cons p ps ih =>
    obtain ⟨c, hc⟩ := push_res grow b.length cap p.length
    unfold fmtW
    rw [Work.bind_res, hc, Res.bind_ok, ih]
    simp

theorem fmtW_cost {grow : Nat → Nat → Nat} (hg : Grows grow) (ps : List Bytes) (b : Bytes) (cap : Nat) (h : b.length ≤ cap) :
    (fmtW grow ps b cap).cost ≤ slack b.length cap + 10 * ps.flatten.length := by
  induction ps generalizing b cap with
  | nil => simp [fmtW, Work.lift]
  | cons p ps ih =>
    obtain ⟨c, hc⟩ := push_res grow b.length cap p.length
    have hp := (push_costs hg b.length cap p.length h).2 c hc
    simp only at hp
    have hr : (fmtW grow (p :: ps) b cap).res = .ok _ := fmtW_res grow (p :: ps) b cap
    unfold fmtW at hr ⊢
    obtain ⟨c', hc', _, hcost⟩ := Work.bind_inv hr
    rw [hc] at hc'
    have := Res.ok.inj hc'
    subst this
    have := ih (b ++ p) c (by simpa using hp.2)
    rw [hcost]
    simp only [List.flatten_cons, List.length_append] at this ⊢
    omega

theorem fmt_cost {grow : Nat → Nat → Nat} (hg : Grows grow) (ps : List Bytes) :
    (fmtW grow ps [] 0).cost ≤ 10 * ps.flatten.length := by
  have := fmtW_cost hg ps [] 0 (by simp)
  simpa [slack] using this

theorem rawW_writes (g : Rules) (x : Bytes) (b : OutBuf) : Writes (rawW g x b) b (.ok x) := by
  obtain ⟨c, hc⟩ := push_res g.buf b.bytes.length b.cap x.length
  refine ⟨c, ?_⟩
  unfold rawW
  rw [Work.bind_res, hc]
  rfl

theorem putW_writes (g : Rules) (ps : List Bytes) (b : OutBuf) : Writes (putW g ps b) b (.ok ps.flatten) := by
  obtain ⟨c, hc⟩ := push_res g.buf b.bytes.length b.cap ps.flatten.length
  refine ⟨c, ?_⟩
  unfold putW
  rw [Work.bind_res, fmtW_res, Res.bind_ok, List.nil_append, Work.bind_res, hc]
  rfl

theorem raw_cost {g : Rules} (hg : GrowsBoth g) (x : Bytes) (b b' : OutBuf) (hb : b.Ok)
    (h : (rawW g x b).res = .ok b') :
    b'.Ok ∧ b'.bytes = b.bytes ++ x ∧ (rawW g x b).cost + b'.slack ≤ b.slack + 10 * x.length := by
  unfold rawW at h ⊢
  obtain ⟨c, hc, h1, hcost⟩ := Work.bind_inv h
  have := Res.ok.inj h1
  subst this
  have hp := (push_costs hg.2 _ _ _ hb).2 c hc
  refine ⟨by simpa [OutBuf.Ok] using hp.2, rfl, ?_⟩
  rw [hcost]
  simp only [Work.lift, OutBuf.slack, List.length_append]
  exact hp.1

theorem put_cost {g : Rules} (hg : GrowsBoth g) (ps : List Bytes) (b b' : OutBuf) (hb : b.Ok)
    (h : (putW g ps b).res = .ok b') :
    b'.Ok ∧ b'.bytes = b.bytes ++ ps.flatten ∧ (putW g ps b).cost + b'.slack ≤ b.slack + 20 * ps.flatten.length := by
  unfold putW at h ⊢
  obtain ⟨x, hx, h1, hcost⟩ := Work.bind_inv h
  rw [fmtW_res, List.nil_append] at hx
  have := Res.ok.inj hx
  subst this
  obtain ⟨h2, h3, h4⟩ := raw_cost hg _ b b' hb h1
  refine ⟨h2, h3, ?_⟩
  rw [hcost]
  have := fmt_cost hg.1 ps
  unfold rawW at h4
  omega

theorem put_pays {g : Rules} (hg : GrowsBoth g) (ps : List Bytes) (b : OutBuf) : Pays (putW g ps b) b := by
  intro hb b' h
  obtain ⟨h1, h2, h3⟩ := put_cost hg ps b b' hb h
  refine ⟨h1, ?_⟩
  rw [h2, List.length_append]
  omega

/-! ## References and persons -/

theorem refW_writes (g : Rules) (w : Bytes) (l : Link) (b : OutBuf) :
    Writes (refW g w l b) b (linkSha l >>= fun h => .ok (w ++ hexEncode h ++ [LF])) := by
  unfold refW
  have hs : (shaW l).res = linkSha l := rfl
  cases hl : linkSha l with
  | err e => simp [Writes, Work.bind_res, hs, hl]
  | panic => simp [Writes, Work.bind_res, hs, hl]
  | ok h =>
    obtain ⟨cap, hc⟩ := putW_writes g [w, hexEncode h, [LF]] b
    refine ⟨cap, ?_⟩
    rw [Work.bind_res, hs, hl, Res.bind_ok, Work.bind_res]
    simp only [hexEncW, Work.spend, Res.bind_ok, hc]
    simp

theorem hexEncode_twice (h : Bytes) : (hexEncode h).length = 2 * h.length := by
  induction h with
  | nil => rfl
  | cons c h ih =>
    have : hexEncode (c :: h) = [hexDigit (c.toNat / 16), hexDigit (c.toNat % 16)] ++ hexEncode h := rfl
    rw [this]
    simp [ih]
    omega

theorem linkSha_len {l : Link} {h : Bytes} (hl : linkSha l = .ok h) : h.length = 20 ∨ (h = [] ∧ ∀ c, l ≠ .cid c) := by
  cases l with
  | nil => simp [linkSha] at hl; exact .inr ⟨hl.symm ▸ rfl, by simp⟩
  | other n => simp [linkSha] at hl; exact .inr ⟨hl.symm ▸ rfl, by simp⟩
  | cid c =>
    simp only [linkSha, cidToSha] at hl
    split at hl
    · simp at hl
    · have := Res.ok.inj hl
      subst this
      left
      rw [List.length_drop]
      omega

theorem shaW_cost {l : Link} (hs : GitLong l) {h : Bytes} (hl : (shaW l).res = .ok h) :
    5 * (shaW l).cost ≤ 6 * h.length := by
  rcases linkSha_len hl with h1 | ⟨rfl, h2⟩
  · cases l with
    | cid c => simp only [shaW, Work.spend, GitLong] at *; omega
    | nil => simp [shaW, Work.spend]
    | other n => simp [shaW, Work.spend]
  · cases l with
    | cid c => exact absurd rfl (h2 c)
    | nil => simp [shaW, Work.spend]
    | other n => simp [shaW, Work.spend]

theorem ref_pays {g : Rules} (hg : GrowsBoth g) (w : Bytes) {l : Link} (hl : GitLong l) (b : OutBuf) :
    Pays (refW g w l b) b := by
  intro hb b' h
  unfold refW at h ⊢
  obtain ⟨x, hx, h1, hc1⟩ := Work.bind_inv h
  obtain ⟨y, hy, h2, hc2⟩ := Work.bind_inv h1
  have := Res.ok.inj hy
  subst this
  obtain ⟨h3, h4, h5⟩ := put_cost hg _ b b' hb h2
  refine ⟨h3, ?_⟩
  have h6 := shaW_cost hl hx
  have h7 : (hexEncW x).cost = 5 * x.length := rfl
  rw [hc1, hc2, h4, h7]
  simp only [List.flatten_cons, List.flatten_nil, List.append_nil, List.length_append, hexEncode_twice, List.length_cons,
    List.length_nil] at h5 ⊢
  omega

theorem gitStringW_res (g : Rules) (p : PersonInfo) : (gitStringW g p).res = .ok (gitString p) := by
  unfold gitStringW
  rw [Work.bind_res, fmtW_res]
  simp only [List.nil_append, Res.bind_ok, Work.spend, gitString]
  split <;> split <;> simp

theorem gitStringW_cost {g : Rules} (hg : GrowsBoth g) (p : PersonInfo) :
    (gitStringW g p).cost ≤ 11 * (gitString p).length := by
  have hr := gitStringW_res g p
  unfold gitStringW at hr ⊢
  obtain ⟨x, hx, h1, hc⟩ := Work.bind_inv hr
  have h2 := fmt_cost hg.1 ([p.name, [SP, LT], p.email, [GT]]
    ++ (if p.date ≠ [] then [[SP], p.date] else [])
    ++ (if p.timezone ≠ [] then [[SP], p.timezone] else []))
  rw [fmtW_res, List.nil_append] at hx
  have hx := Res.ok.inj hx
  have h1 : x = gitString p := Res.ok.inj h1
  rw [hx, h1] at h2
  rw [hc, h1]
  simp only [Work.spend]
  omega

theorem personW_writes (g : Rules) (w : Bytes) (p : PersonInfo) (t : Bytes) (b : OutBuf) :
    Writes (personW g w p t b) b (.ok (w ++ gitString p ++ t)) := by
  unfold personW
  obtain ⟨cap, hc⟩ := putW_writes g [w, gitString p, t] b
  refine ⟨cap, ?_⟩
  rw [Work.bind_res, gitStringW_res, Res.bind_ok, hc]
  simp

theorem person_pays {g : Rules} (hg : GrowsBoth g) (w : Bytes) (p : PersonInfo) (t : Bytes) (b : OutBuf) :
    Pays (personW g w p t b) b := by
  intro hb b' h
  unfold personW at h ⊢
  obtain ⟨x, hx, h1, hc⟩ := Work.bind_inv h
  rw [gitStringW_res] at hx
  have := Res.ok.inj hx
  subst this
  obtain ⟨h3, h4, h5⟩ := put_cost hg _ b b' hb h1
  refine ⟨h3, ?_⟩
  have := gitStringW_cost hg p
  rw [hc, h4]
  simp only [List.flatten_cons, List.flatten_nil, List.append_nil, List.length_append] at h5 ⊢
  omega

/-! ## Sending -/

theorem sendW_res (g : Rules) (w : Bytes) (b : OutBuf) : (sendW g w b).res = .ok (withHeader w b.bytes) := by
  unfold sendW
  rw [Work.bind_res, fmtW_res]
  simp [Work.spend, withHeader]

theorem sendW_cost {g : Rules} (hg : GrowsBoth g) (w : Bytes) (b : OutBuf) :
    (sendW g w b).cost + 10 * b.bytes.length ≤ 11 * (withHeader w b.bytes).length := by
  have hr := sendW_res g w b
  unfold sendW at hr ⊢
  obtain ⟨x, hx, h1, hc⟩ := Work.bind_inv hr
  have h2 := fmt_cost hg.1 [w, [SP], decimal b.bytes.length, [NUL]]
  rw [fmtW_res, List.nil_append] at hx
  have hx := Res.ok.inj hx
  have h1 : x ++ b.bytes = withHeader w b.bytes := Res.ok.inj h1
  rw [hx] at h2
  rw [hc, ← h1]
  simp only [Work.spend, List.length_append]
  omega

/-- What was appended to an empty buffer and sent. -/
theorem sent {g : Rules} (hg : GrowsBoth g) {x : Work OutBuf} (hp : Pays x ⟨[], 0⟩) (w out : Bytes)
    (h : (x.bind fun b => sendW g w b).res = .ok out) :
    (x.bind fun b => sendW g w b).cost ≤ 32 * out.length := by
  obtain ⟨b, hb, h1, hc⟩ := Work.bind_inv h
  rw [sendW_res] at h1
  have := Res.ok.inj h1
  subst this
  obtain ⟨_, h2⟩ := hp (by simp [OutBuf.Ok]) b hb
  have h3 := sendW_cost hg w b
  have h4 : b.bytes.length ≤ (withHeader w b.bytes).length := by simp [withHeader]; omega
  have h5 : (OutBuf.slack ⟨[], 0⟩) = 0 := rfl
  rw [hc]
  simp only [h5, List.length_nil] at h2
  omega

theorem sent_res (g : Rules) {x : Work OutBuf} {r : Res Bytes} (hw : Writes x ⟨[], 0⟩ r) (w : Bytes) :
    (x.bind fun b => sendW g w b).res = r >>= fun y => .ok (withHeader w y) := by
  cases r with
  | err e => simp only [Writes] at hw; rw [Work.bind_res, hw]; rfl
  | panic => simp only [Writes] at hw; rw [Work.bind_res, hw]; rfl
  | ok y =>
    obtain ⟨cap, hw⟩ := hw
    rw [Work.bind_res, hw, Res.bind_ok, sendW_res]
    rfl

/-! ## The encoders -/

theorem work_assoc {α β γ : Type} (x : Work α) (f : α → Work β) (k : β → Work γ) :
    (x.bind f).bind k = x.bind fun a => (f a).bind k := by
  unfold Work.bind
  cases x.res with
  | err e => rfl
  | panic => rfl
  | ok a =>
    simp only
    cases (f a).res <;> simp [Nat.add_assoc]


theorem pair_writes {x : Work OutBuf} {f : OutBuf → Work OutBuf} {b : OutBuf} {r : Res Bytes} {y : Bytes} (h : Writes x b r)
    (hf : ∀ b', Writes (f b') b' (.ok y)) : Writes (x.bind f) b (r >>= fun a => .ok (a ++ y)) := by
  have := h.bind hf
  simpa using this

theorem treeEntryW_writes (g : Rules) (name : Bytes) (e : TreeEntry) (b : OutBuf) :
    Writes (encTreeEntryW g name e b) b (encTreeEntry name e) := by
  obtain ⟨cap, hc⟩ := putW_writes g [e.mode, [SP], name, [NUL]] b
  unfold encTreeEntryW encTreeEntry
  cases hh : e.hash with
  | nil => simp [Writes, Work.bind_res, hc, Work.lift]
  | other n => simp [Writes, Work.bind_res, hc, Work.lift]
  | cid c =>
    have hs : (shaW (.cid c)).res = cidToSha c := rfl
    cases hx : cidToSha c with
    | err e => simp [Writes, Work.bind_res, hc, hs, hx]
    | panic => simp [Writes, Work.bind_res, hc, hs, hx]
    | ok h =>
      obtain ⟨cap', hc'⟩ := rawW_writes g h ⟨b.bytes ++ [e.mode, [SP], name, [NUL]].flatten, cap⟩
      simp only [hx, Res.bind_ok]
      refine ⟨cap', ?_⟩
      rw [Work.bind_res, hc, Res.bind_ok, Work.bind_res, hs, hx, Res.bind_ok, hc']
      simp

theorem treeEntriesW_writes (g : Rules) (rs : List (Bytes × TreeEntry)) (b : OutBuf) :
    Writes (encTreeEntriesW g rs b) b (encTreeEntries rs) := by
  induction rs generalizing b with
  | nil => exact Writes.nil b
  | cons r rs ih => exact (treeEntryW_writes g r.1 r.2 b).bind ih

theorem treeEntry_pays {g : Rules} (hg : GrowsBoth g) (name : Bytes) (e : TreeEntry) (hl : GitLong e.hash)
    (b : OutBuf) : Pays (encTreeEntryW g name e b) b := by
  unfold encTreeEntryW
  refine (put_pays hg _ b).bind fun b' => ?_
  cases hh : e.hash with
  | nil => exact Pays.panic b'
  | other n => exact Pays.panic b'
  | cid c =>
    rw [hh] at hl
    intro hb b2 h
    obtain ⟨x, hx, h1, hcost⟩ := Work.bind_inv h
    obtain ⟨h2, h3, h4⟩ := raw_cost hg x b' b2 hb h1
    refine ⟨h2, ?_⟩
    have := shaW_cost hl hx
    rw [hcost, h3, List.length_append]
    omega

theorem treeEntries_pays {g : Rules} (hg : GrowsBoth g) (rs : List (Bytes × TreeEntry))
    (hl : ∀ r ∈ rs, GitLong r.2.hash) (b : OutBuf) : Pays (encTreeEntriesW g rs b) b := by
  induction rs generalizing b with
  | nil => exact Pays.nil b
  | cons r rs ih =>
    exact (treeEntry_pays hg r.1 r.2 (hl r (by simp)) b).bind fun b' => ih (fun r hr => hl r (by simp [hr])) b'

theorem parentsW_writes (g : Rules) (ps : List Link) (b : OutBuf) :
    Writes (encParentsW g ps b) b (encParents ps) := by
  induction ps generalizing b with
  | nil => exact Writes.nil b
  | cons p ps ih =>
    have := (refW_writes g b!"parent " p b).bind ih
    unfold encParentsW encParents
    cases h1 : linkSha p <;> simp [h1] at this ⊢ <;> simpa using this

theorem parents_pays {g : Rules} (hg : GrowsBoth g) (ps : List Link) (hl : ∀ p ∈ ps, GitLong p) (b : OutBuf) :
    Pays (encParentsW g ps b) b := by
  induction ps generalizing b with
  | nil => exact Pays.nil b
  | cons p ps ih => exact (ref_pays hg _ (hl p (by simp)) b).bind fun b' => ih (fun p hp => hl p (by simp [hp])) b'

theorem mergeTagW_writes (g : Rules) (t : Tag) (b : OutBuf) :
    Writes (encMergeTagW g t b) b (encMergeTag t) := by
  have h := (refW_writes g b!"mergetag object " t.object b).bind fun b =>
    (putW_writes g [b!" type ", t.typ, [LF]] b).bind fun b =>
      (putW_writes g [b!" tag ", t.tag, [LF]] b).bind fun b =>
        (personW_writes g b!" tagger " t.tagger b!"\n \n" b).bind fun b => putW_writes g [t.message] b
  unfold encMergeTagW encMergeTag
  cases h1 : linkSha t.object <;> simp [h1] at h ⊢ <;> simpa using h

theorem mergeTag_pays {g : Rules} (hg : GrowsBoth g) (t : Tag) (hl : GitLong t.object) (b : OutBuf) :
    Pays (encMergeTagW g t b) b :=
  (ref_pays hg _ hl b).bind fun b => (put_pays hg _ b).bind fun b => (put_pays hg _ b).bind fun b =>
    (person_pays hg _ _ _ b).bind fun b => put_pays hg _ b

theorem mergeTagsW_writes (g : Rules) (ts : List Tag) (b : OutBuf) :
    Writes (encMergeTagsW g ts b) b (encMergeTags ts) := by
  induction ts generalizing b with
  | nil => exact Writes.nil b
  | cons t ts ih => exact (mergeTagW_writes g t b).bind ih

theorem mergeTags_pays {g : Rules} (hg : GrowsBoth g) (ts : List Tag) (hl : ∀ t ∈ ts, GitLong t.object)
    (b : OutBuf) : Pays (encMergeTagsW g ts b) b := by
  induction ts generalizing b with
  | nil => exact Pays.nil b
  | cons t ts ih => exact (mergeTag_pays hg t (hl t (by simp)) b).bind fun b' => ih (fun t ht => hl t (by simp [ht])) b'

theorem someoneW_writes (g : Rules) (w : Bytes) (p : Option PersonInfo) (b : OutBuf) :
    Writes (someoneW g w p b) b (personOrPanic p >>= fun x => .ok (w ++ x ++ [LF])) := by
  cases p with
  | none => simp [someoneW, personOrPanic, Writes, Work.lift]
  | some p => exact personW_writes g w p [LF] b

theorem someone_pays {g : Rules} (hg : GrowsBoth g) (w : Bytes) (p : Option PersonInfo) (b : OutBuf) :
    Pays (someoneW g w p b) b := by
  cases p with
  | none => exact Pays.panic b
  | some p => exact person_pays hg w p [LF] b

theorem sigW_writes (g : Rules) (x : Option Bytes) (b : OutBuf) :
    Writes (encSigW g x b) b (.ok (match x with
        | some x => b!"gpgsig -----BEGIN PGP SIGNATURE-----\n" ++ x
            ++ b!" -----END PGP SIGNATURE-----\n"
        | none => [])) := by
  cases x with
  | none => exact Writes.nil b
  | some x =>
    have h := (putW_writes g [b!"gpgsig -----BEGIN PGP SIGNATURE-----", [LF]] b).bind fun b =>
      (putW_writes g [x] b).bind fun b => putW_writes g [b!" -----END PGP SIGNATURE-----", [LF]] b
    simp only [Res.bind_ok] at h
    unfold encSigW
    have e : ([b!"gpgsig -----BEGIN PGP SIGNATURE-----", [LF]].flatten
      ++ ([x].flatten ++ [b!" -----END PGP SIGNATURE-----", [LF]].flatten))
      = b!"gpgsig -----BEGIN PGP SIGNATURE-----\n" ++ x ++ b!" -----END PGP SIGNATURE-----\n" := by
      have e1 : [b!"gpgsig -----BEGIN PGP SIGNATURE-----", [LF]].flatten = b!"gpgsig -----BEGIN PGP SIGNATURE-----\n" := by
        decide +kernel
      have e2 : [b!" -----END PGP SIGNATURE-----", [LF]].flatten = b!" -----END PGP SIGNATURE-----\n" := by decide +kernel
      rw [e1, e2, List.append_assoc]
      congr 2
      simp
    rw [e] at h
    exact h

theorem sig_pays {g : Rules} (hg : GrowsBoth g) (x : Option Bytes) (b : OutBuf) : Pays (encSigW g x b) b := by
  cases x with
  | none => exact Pays.nil b
  | some x => exact (put_pays hg _ b).bind fun b => (put_pays hg _ b).bind fun b => put_pays hg _ b

theorem otherW_writes (g : Rules) (ls : List Bytes) (b : OutBuf) :
    Writes (encOtherW g ls b) b (.ok (encOther ls)) := by
  induction ls generalizing b with
  | nil => exact Writes.nil b
  | cons l ls ih =>
    have h := (putW_writes g [l, [LF]] b).bind ih
    have e : encOther (l :: ls) = [l, [LF]].flatten ++ encOther ls := by simp [encOther]
    rw [e]
    exact h

theorem other_pays {g : Rules} (hg : GrowsBoth g) (ls : List Bytes) (b : OutBuf) : Pays (encOtherW g ls b) b := by
  induction ls generalizing b with
  | nil => exact Pays.nil b
  | cons l ls ih => exact (put_pays hg _ b).bind ih

theorem obj_res (g : Rules) (o : Obj) : (encObjW g o).res = encObj o := by
  cases o with
  | blob b => rfl
  | tree t =>
    have := sent_res g (treeEntriesW_writes g t.t ⟨[], 0⟩) b!"tree"
    exact this
  | tag t =>
    have h := (refW_writes g b!"object " t.object ⟨[], 0⟩).bind fun b =>
      (putW_writes g [b!"type ", t.typ, [LF]] b).bind fun b =>
        (putW_writes g [b!"tag ", t.tag, [LF]] b).bind fun b =>
          (personW_writes g b!"tagger " t.tagger [LF] b).bind fun b =>
            (putW_writes g (if t.message ≠ [] then [[LF], t.message] else []) b)
    have := sent_res g h b!"tag"
    simp only [encObjW, encTagW, encObj, encTag, Work.bind_res, Res.bind_assoc] at this ⊢
    rw [this]
    cases linkSha t.object with
    | err e => simp only [Res.bind_err]
    | panic => simp only [Res.bind_panic]
    | ok x =>
      simp only [Res.bind_ok]
      congr 2
      by_cases hm : t.message = [] <;> simp [hm]
  | commit c =>
    have h := (refW_writes g b!"tree " c.tree ⟨[], 0⟩).bind fun b =>
      (parentsW_writes g c.parents b).bind fun b =>
        (someoneW_writes g b!"author " c.author b).bind fun b =>
          (someoneW_writes g b!"committer " c.committer b).bind fun b =>
            (putW_writes g (encodingPieces c.encoding) b).bind fun b =>
              (mergeTagsW_writes g c.mergetag b).bind fun b =>
                (sigW_writes g c.signature b).bind fun b =>
                  (otherW_writes g c.other b).bind fun b => putW_writes g [[LF], c.message] b
    have := sent_res g h b!"commit"
    simp only [encObjW, encCommitW, encObj, encCommit, Work.bind_res, Res.bind_assoc] at this ⊢
    rw [this]
    cases linkSha c.tree with
    | err e => simp only [Res.bind_err]
    | panic => simp only [Res.bind_panic]
    | ok x =>
      simp only [Res.bind_ok]
      cases encParents c.parents with
      | err e => simp only [Res.bind_err]
      | panic => simp only [Res.bind_panic]
      | ok ps =>
        simp only [Res.bind_ok]
        cases personOrPanic c.author with
        | err e => simp only [Res.bind_err]
        | panic => simp only [Res.bind_panic]
        | ok au =>
          simp only [Res.bind_ok]
          cases personOrPanic c.committer with
          | err e => simp only [Res.bind_err]
          | panic => simp only [Res.bind_panic]
          | ok co =>
            simp only [Res.bind_ok]
            cases encMergeTags c.mergetag with
            | err e => simp only [Res.bind_err]
            | panic => simp only [Res.bind_panic]
            | ok ms =>
              simp only [Res.bind_ok]
              congr 2
              cases c.encoding <;> cases c.signature <;> simp [encodingPieces]

theorem obj_cost {g : Rules} (hg : GrowsBoth g) (o : Obj) (hl : ∀ l ∈ linksOf o, GitLong l) (out : Bytes)
    (h : encObj o = .ok out) : (encObjW g o).cost ≤ 32 * out.length := by
  rw [← obj_res g] at h
  cases o with
  | blob b =>
    have : b = out := Res.ok.inj h
    subst this
    simp only [encObjW, Work.spend]
    omega
  | tree t =>
    exact sent hg (treeEntries_pays hg t.t (fun r hr => hl _ (List.mem_map_of_mem hr)) _) _ out h
  | tag t =>
    have hp := (ref_pays hg b!"object " (hl t.object (by simp [linksOf])) ⟨[], 0⟩).bind fun b =>
      (put_pays hg [b!"type ", t.typ, [LF]] b).bind fun b =>
        (put_pays hg [b!"tag ", t.tag, [LF]] b).bind fun b =>
          (person_pays hg b!"tagger " t.tagger [LF] b).bind fun b =>
            (put_pays hg (if t.message ≠ [] then [[LF], t.message] else []) b)
    have := sent hg hp b!"tag" out
    simp only [encObjW, encTagW, work_assoc] at this h ⊢
    exact this h
  | commit c =>
    have hp := (ref_pays hg b!"tree " (hl c.tree (by simp [linksOf])) ⟨[], 0⟩).bind fun b =>
      (parents_pays hg c.parents (fun p hp => hl p (by simp [linksOf, hp])) b).bind fun b =>
        (someone_pays hg b!"author " c.author b).bind fun b =>
          (someone_pays hg b!"committer " c.committer b).bind fun b =>
            (put_pays hg (encodingPieces c.encoding) b).bind fun b =>
              (mergeTags_pays hg c.mergetag (fun t ht => hl _ (by simp [linksOf]; exact .inr (.inr ⟨t, ht, rfl⟩))) b).bind fun b =>
                (sig_pays hg c.signature b).bind fun b =>
                  (other_pays hg c.other b).bind fun b => put_pays hg [[LF], c.message] b
    have := sent hg hp b!"commit" out
    simp only [encObjW, encCommitW, work_assoc] at this h ⊢
    exact this h

end Verif
