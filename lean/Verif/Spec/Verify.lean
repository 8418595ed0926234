import Verif.Spec.GitWrite

/-!
# What a signature signs

How `git verify-commit` takes a commit apart (`parse_signed_commit` in commit.c of
git): the lines of the header `gpgsig` are the signature, those of other headers
that begin with `gpgsig`, such as `gpgsig-sha256`, are left out, and everything else
is what was signed.
-/

namespace Verif.Spec

open Verif

/-- Where a header line is. -/
inductive SigPlace where
  | none
  | sig
  | foreign
  deriving DecidableEq

/-- A line that begins with a space belongs to the header before it. -/
def sigPlace (s : SigPlace) (l : Bytes) : SigPlace :=
  if b!"gpgsig " <+: l then .sig
  else if b!"gpgsig" <+: l then .foreign
  else if l.head? = some SP then s
  else .none

/-- The lines that were signed. -/
def payloadLines : SigPlace → List Bytes → List Bytes
  | _, [] => []
  | s, l :: ls => (if sigPlace s l = .none then [l] else []) ++ payloadLines (sigPlace s l) ls

/-- The lines of the signature, without the keyword and the spaces before them. -/
def signatureLines : SigPlace → List Bytes → List Bytes
  | _, [] => []
  | s, l :: ls => (if sigPlace s l = .sig then [if b!"gpgsig " <+: l then l.drop 7 else l.drop 1] else [])
      ++ signatureLines (sigPlace s l) ls

/-- Git takes the commit apart into what was signed and the signature. -/
def GitSigned (body payload sig : Bytes) : Prop :=
  ∃ ls msg, (∀ l ∈ ls, l ≠ [] ∧ LF ∉ l) ∧ body = unlines ls ++ LF :: msg ∧
    payload = unlines (payloadLines .none ls) ++ LF :: msg ∧ sig = unlines (signatureLines .none ls)

/-- The header is a merged tag. -/
def Extra.isMerge : Extra → Bool
  | .mergetag _ => true
  | .other _ _ => false

/-- The merged tags before the others, otherwise in the same order. -/
def mergesFirst (xs : List Extra) : List Extra := xs.filter Extra.isMerge ++ xs.filter fun x => !x.isMerge

/-- No other header that git takes for a signature. -/
def NoForeignSig (xs : List Extra) : Prop := ∀ k v, Extra.other k v ∈ xs → ¬ b!"gpgsig" <+: k

/-- The header is part of what is signed: git leaves out those that begin like a
signature, such as `gpgsig-sha256`. -/
def Extra.isSigned : Extra → Bool
  | .mergetag _ => true
  | .other k _ => !(decide (b!"gpgsig" <+: k))

/-- The text that the signing program returned. -/
def armourText (f : SigFormat) (ls : List Bytes) : Bytes := unlines (f.first :: ls ++ [f.last])

end Verif.Spec
