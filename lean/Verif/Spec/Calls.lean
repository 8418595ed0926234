import Verif.Model.Calls

/-!
# Which sequences of calls build which value

`Makes t v cs`: the calls `cs` on a fresh builder of type `t`, and on the handles
it gives out, spell out the value `v`. Every call comes with the depth of the
handle it is made on: 0 for the builder, 1 for the handle of its entries, and so
on.

A string or link takes one call. A list is begun, every element is asked for and
spelled out one level down, and the list is finished. A struct is begun, its
entries are named and spelled out one level down, every required field is among
them and none comes twice, and the struct is finished. A whole value of the right
type can also be given in one call.
-/

namespace Verif.Spec

open Calls

/-- The same calls one level further down. -/
def deeper (cs : List (Nat × Call)) : List (Nat × Call) := cs.map fun p => (p.1 + 1, p.2)

/-- The two ways to name the next entry. -/
inductive Names (k : Bytes) : List (Nat × Call) → Prop where
  | entry : Names k [(0, .assembleEntry k)]
  | keyValue : Names k [(0, .assembleKey), (0, .keyAssign k), (0, .assembleValue)]

/-- A field called `k` at place `i`. -/
def FieldAt (fs : List FieldT) (i : Nat) (fd : FieldT) : Prop := fs[i]? = some fd

/-- All required fields have been given. -/
def AllGiven (fs : List FieldT) (l : List (Option Val)) : Prop :=
  ∀ (i : Nat) (fd : FieldT), FieldAt fs i fd → fd.required = true → ∃ v : Val, l[i]? = some (some v)

mutual

/-- `cs` spells out the value `v` of type `t`. -/
inductive Makes : T → Val → List (Nat × Call) → Prop where
  | text {t : T} (h : t.shape = .text) (b : Bytes) : Makes t (.text b) [(0, .assignString b)]
  | link {t : T} (h : t.shape = .link) (l : Link) : Makes t (.link l) [(0, .assignLink l)]
  | whole {t : T} (v : Val) : Makes t v [(0, .assignSelf t v)]
  | list {t e : T} (h : t.shape = .list e) (n : Int) {vs : List Val} {cs : List (Nat × Call)} :
      Elems e vs cs → Makes t (.list vs) ((0, .beginList n) :: cs ++ [(0, .finish)])
  | struct {t : T} {fs : List FieldT} (h : t.shape = .struct fs) {l : List (Option Val)}
      {cs : List (Nat × Call)} :
      Entries fs l cs → AllGiven fs l → Makes t (.struct l) ((0, .beginMap) :: cs ++ [(0, .finish)])

/-- `cs` spells out the elements `vs`. -/
inductive Elems : T → List Val → List (Nat × Call) → Prop where
  | nil {e : T} : Elems e [] []
  | snoc {e : T} {vs : List Val} {cs : List (Nat × Call)} {v : Val} {c : List (Nat × Call)} :
      Elems e vs cs → Makes e v c → Elems e (vs ++ [v]) (cs ++ (0, .assembleValue) :: deeper c)

/-- `cs` spells out the entries of a struct; `l` are the fields given. -/
inductive Entries : List FieldT → List (Option Val) → List (Nat × Call) → Prop where
  | nil {fs : List FieldT} : Entries fs (fs.map fun _ => none) []
  | snoc {fs : List FieldT} {l : List (Option Val)} {cs : List (Nat × Call)} {i : Nat} {fd : FieldT}
      {nm : List (Nat × Call)} {v : Val} {c : List (Nat × Call)} :
      Entries fs l cs → FieldAt fs i fd → l[i]? = some none → Names fd.name nm → Makes fd.ty v c →
      Entries fs (l.set i (some v)) (cs ++ nm ++ deeper c)

end

/-- A value of type `t` in which nothing required is missing, at any depth. -/
inductive Complete : T → Val → Prop where
  | text {t : T} (h : t.shape = .text) (b : Bytes) : Complete t (.text b)
  | link {t : T} (h : t.shape = .link) (l : Link) : Complete t (.link l)
  | list {t e : T} (h : t.shape = .list e) (vs : List Val) :
      (∀ v ∈ vs, Complete e v) → Complete t (.list vs)
  | struct {t : T} {fs : List FieldT} (h : t.shape = .struct fs) (l : List (Option Val)) :
      l.length = fs.length → AllGiven fs l →
      (∀ (i : Nat) (fd : FieldT) (v : Val), FieldAt fs i fd → l[i]? = some (some v) → Complete fd.ty v) →
      Complete t (.struct l)

/-- What a client sees of its calls on a builder that it makes one after the other,
whether they return an error or not. `none`: one of them panicked, or the client
had no handle to make it on. Otherwise the builder, and which calls returned no
error. -/
def play : Frame → List (Nat × Call) → Option (Frame × List (Nat × Call))
  | a, [] => some (a, [])
  | a, (d, c) :: r =>
    match a.callAt d c with
    | .ok a' => (play a' r).map fun p => (p.1, (d, c) :: p.2)
    | .err _ a' => play a' r
    | .panic => none
    | .noHandle => none

/-- What a call on the kept handle of a required field of type `t` leaves in the
field, in place of `old`; `none` if the call is refused. -/
def overwritten (t : T) (old : Val) (c : Call) : Option Val :=
  match t.shape, c with
  | _, .assignSelf u v => if u = t then some v else none
  | .text, .assignString x => some (.text x)
  | .link, .assignLink l => some (.link l)
  | .list _, .beginList h => some (if 0 < h then .list [] else old)
  | .struct _, .beginMap => some old
  | _, _ => none

end Verif.Spec
