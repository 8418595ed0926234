import Verif.Spec.Calls
import Verif.Model.Foreign

/-!
# Specification: the value that a node gives

What a value of a type is when a node is all that is known of it: strings and links
as they are, lists element by element, structs by looking up the names of the
entries. No assemblers, no memory, no states.

`bare` is for the one thing that differs between a builder and the author and
committer of a commit: these have no value to begin with, and an entry given to what
is not there is a panic.
-/

namespace Verif.Spec

open Calls Handles

/-- No required field is missing. -/
def noneMissing (fs : List FieldT) (l : List (Option Val)) : Bool :=
  (fs.zip l).all fun x => !x.1.required || x.2.isSome

mutual

/-- The value of type `t` that the node gives. -/
def taken (bare : Bool) (t : T) : Nd → Res Val
  | .null | .other => .err .wrongKind
  | .own u v n => if u = t then .ok v else taken bare t n
  | .text b =>
    match t.shape with
    | .text => .ok (.text b)
    | _ => .err .wrongKind
  | .link l =>
    match t.shape with
    | .link => .ok (.link l)
    | _ => .err .wrongKind
  | .list ns =>
    match t.shape with
    | .list e => takenAll e ns >>= fun vs => .ok (.list vs)
    | _ => .err .wrongKind
  | .map es =>
    match t.shape with
    | .struct fs => takenFields bare fs es (fs.map fun _ => none) >>= fun l => .ok (.struct l)
    | _ => .err .wrongKind

/-- The elements, one after the other. -/
def takenAll (e : T) : Nds → Res (List Val)
  | .nil => .ok []
  | .cons n r => taken false e n >>= fun v => takenAll e r >>= fun vs => .ok (v :: vs)

/-- The entries, one after the other; `l` are the fields so far. -/
def takenFields (bare : Bool) (fs : List FieldT) : Ents → List (Option Val) → Res (List (Option Val))
  | .nil, l => if noneMissing fs l then .ok l else .err .missingField
  | .cons k n r, l =>
    match fs.findIdx? fun f => f.name = k with
    | none => .err .invalidKey
    | some i =>
      match l[i]?, fs[i]? with
      | some none, some fd =>
        if bare then .panic
        else taken (!fd.required && FieldT.byRef fd) fd.ty n >>= fun v => takenFields bare fs r (l.set i (some v))
      | _, _ => .err .repeatedKey

end

mutual

/-- The nodes of the package's own types have all that their types require. -/
def Filled : Nd → Prop
  | .own t v n => Complete t v ∧ Filled n
  | .list ns => FilledAll ns
  | .map es => FilledEnts es
  | _ => True

def FilledAll : Nds → Prop
  | .nil => True
  | .cons n r => Filled n ∧ FilledAll r

def FilledEnts : Ents → Prop
  | .nil => True
  | .cons _ n r => Filled n ∧ FilledEnts r

end

/-- `n` gives a person entry by entry, the first of which is one of its fields. -/
def ByEntries : Nd → Prop
  | .own t _ n => t ≠ .person ∧ ByEntries n
  | .map (.cons k _ _) => k = b!"date" ∨ k = b!"timezone" ∨ k = b!"email" ∨ k = b!"name"
  | _ => False

/-- `n` is an entry `k` of the map. -/
inductive EntryOf (k : Bytes) (n : Nd) : Nd → Prop where
  | view {t : T} {v : Val} {d : Nd} : t ≠ .commit → EntryOf k n d → EntryOf k n (.own t v d)
  | here {es : Ents} : EntryOf k n (.map (.cons k n es))
  | later {k' : Bytes} {n' : Nd} {es : Ents} : EntryOf k n (.map es) → EntryOf k n (.map (.cons k' n' es))

end Verif.Spec
