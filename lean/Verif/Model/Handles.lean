import Verif.Model.Calls

/-!
# Assemblers as objects in memory (`/repo/ipldsch_satisfaction.go`)

`Verif.Model.Calls` has one child per assembler, the one handed out last, and keeps
the value under construction in it. In the code every assembler contains one
assembler for each of its fields (`ca_tree`, `ca_parents`, ...) or one for its
elements (`va`), for good; a handle is a pointer to one of them; and each of them
has a pointer `w` to the place it writes to and a pointer `m` to its mark. A client
that keeps a handle past the field it was given for still reaches the assembler.

This file models that: the tree of assemblers of a builder, the memory that holds
the values, and calls on any handle that was ever given out. All scalar, list and
struct types are covered, in both views.

Simplified:
* `AssignNode` appears only with a node of the assembler's own type, and such a
  node is in memory that nobody else uses. (`Verif.Model.Sharing` has the sharing,
  `Verif.Model.Foreign` the other nodes.)
* When `append` has no room left it makes a new array; how much room that has is
  a parameter (`grow`).
* `BeginList` with a size hint that cannot be allocated makes the Go runtime panic
  or run out of memory; here every hint can be allocated.
* `Reset` of the builder is in `Reset`.
-/

namespace Verif.Handles

open Verif.Calls

/-- What is in memory: the types of /repo/ipldsch_types.go:53-145 with slices and
pointers, the optional fields `_X__Maybe` (e.g. ipldsch_satisfaction.go:3035-3038,
4137-4140), and the arrays behind slices. A nil slice is `slice` with no room. -/
inductive MVal where
  | text (b : Bytes)
  | link (l : Link)
  | slice (arr len cap : Nat)
  | struct (fs : List MVal)
  | maybe (m : Maybe) (v : MVal)
  | ref (p : Option (Nat × List Nat))
  | arr (vs : List MVal)

/-- A pointer: an object, and where in it. -/
abbrev Ptr := Nat × List Nat

/-- The part of an object at a path: fields and elements by number; the value of an
optional field has number 0. -/
def MVal.get : List Nat → MVal → MVal
  | [], v => v
  | i :: p, .struct fs => ((fs[i]?).getD (.ref none)).get p
  | i :: p, .arr vs => ((vs[i]?).getD (.ref none)).get p
  | _ :: p, .maybe _ v => v.get p
  | _ :: _, v => v

/-- The object with the part at a path replaced. -/
def MVal.set : List Nat → MVal → MVal → MVal
  | [], _, x => x
  | i :: p, .struct fs, x => .struct (fs.set i (((fs[i]?).getD (.ref none)).set p x))
  | i :: p, .arr vs, x => .arr (vs.set i (((vs[i]?).getD (.ref none)).set p x))
  | _ :: p, .maybe m v, x => .maybe m (v.set p x)
  | _ :: _, v, _ => v

/-- Memory: objects, and the number of the next one to be made. -/
structure Mem where
  at' : Nat → MVal
  next : Nat

namespace Mem

def read (μ : Mem) (p : Ptr) : MVal := (μ.at' p.1).get p.2

def write (μ : Mem) (p : Ptr) (x : MVal) : Mem :=
  { μ with at' := fun r => if r = p.1 then (μ.at' r).set p.2 x else μ.at' r }

def alloc (μ : Mem) (x : MVal) : Mem :=
  { at' := fun r => if r = μ.next then x else μ.at' r, next := μ.next + 1 }

/-- The mark of an optional field. -/
def mark (μ : Mem) (p : Ptr) : Maybe :=
  match μ.read p with
  | .maybe m _ => m
  | _ => .absent

def setMark (μ : Mem) (p : Ptr) (m : Maybe) : Mem :=
  match μ.read p with
  | .maybe _ v => μ.write p (.maybe m v)
  | _ => μ

end Mem

/-- Optional fields of struct type hold a pointer, the others the value.
/repo/ipldsch_satisfaction.go:3035-3038, 4137-4140. -/
def FieldT.byRef (fd : FieldT) : Bool :=
  match fd.ty.shape with
  | .struct _ => true
  | _ => false

/-- How deep the values of a type are nested. /repo/ipldsch_types.go:53-145. -/
def rank : T → Nat
  | .commit => 4
  | .tagList => 3
  | .tag => 2
  | .person | .treeEntry | .linkList | .stringList => 1
  | _ => 0

/-- The zero value in memory, e.g. `&_Commit{}`. The first argument bounds the
nesting. -/
def zeroM : Nat → T → MVal
  | n, t =>
    match t.shape with
    | .text => .text []
    | .link => .link .nil
    | .list _ => .slice 0 0 0
    | .struct fs =>
      match n with
      | 0 => .struct []
      | n + 1 => .struct (fs.map fun fd =>
          if fd.required then zeroM n fd.ty
          else .maybe .absent (if FieldT.byRef fd then .ref none else zeroM n fd.ty))

def T.zeroM (t : T) : MVal := Handles.zeroM (rank t) t

/-- Where the mark of an assembler is: in the builder, in the assembler that
contains it (`cm`), or in the value, for an optional field.
/repo/ipldsch_satisfaction.go:463-467, 821-872. -/
inductive MarkAt where
  | builder
  | parent
  | mem (p : Ptr)

/-- An assembler with the assemblers it contains (one for each field of a struct,
one for the elements of a list), e.g. /repo/ipldsch_satisfaction.go:469-486,
2204-2211. `given` and `begun` tell whether the client has ever got the handle of
the assembler itself and the map or list assembler (from `BeginMap` or
`BeginList`). -/
inductive Obj where
  | mk (ty : T) (w : Option Ptr) (m : MarkAt) (given begun : Bool) (ph : MaState) (s f : Nat)
      (cm : Maybe) (kids : List Obj)

namespace Obj

def ty : Obj → T | mk t _ _ _ _ _ _ _ _ _ => t
def w : Obj → Option Ptr | mk _ w _ _ _ _ _ _ _ _ => w
def m : Obj → MarkAt | mk _ _ m _ _ _ _ _ _ _ => m
def given : Obj → Bool | mk _ _ _ g _ _ _ _ _ _ => g
def begun : Obj → Bool | mk _ _ _ _ b _ _ _ _ _ => b
def ph : Obj → MaState | mk _ _ _ _ _ p _ _ _ _ => p
def s : Obj → Nat | mk _ _ _ _ _ _ s _ _ _ => s
def f : Obj → Nat | mk _ _ _ _ _ _ _ f _ _ => f
def cm : Obj → Maybe | mk _ _ _ _ _ _ _ _ c _ => c
def kids : Obj → List Obj | mk _ _ _ _ _ _ _ _ _ k => k

mutual

/-- `reset`, e.g. /repo/ipldsch_satisfaction.go:488-500, 2213-2216, 4255. It leaves
`w`, `m`, `f` and `cm` alone. -/
def reset : Obj → Obj
  | mk t w m g b ph s f cm kids =>
    match t.shape with
    | .list _ => mk t w m g b .initial s f cm (resetAll kids)
    | .struct _ => mk t w m g b .initial 0 f cm (resetAll kids)
    | _ => mk t w m g b ph s f cm kids

def resetAll : List Obj → List Obj
  | [] => []
  | o :: r => o.reset :: resetAll r

end

/-- Handing an assembler out with the places it is to use. -/
def lend (w : Option Ptr) (m : MarkAt) : Obj → Obj
  | mk t _ _ _ b ph s f cm kids => mk t w m true b ph s f cm kids

/-- The assembler with its pointer cleared. -/
def park : Obj → Obj
  | mk t _ m g b ph s f cm kids => mk t none m g b ph s f cm kids

end Obj

/-- An assembler that has not been used; the first argument bounds the nesting. -/
def newObj : Nat → T → Obj
  | n, t => .mk t none .parent false false .initial 0 0 .absent
    (match n with
    | 0 => []
    | n + 1 =>
      match t.shape with
      | .list e => [newObj n e]
      | .struct fs => fs.map fun fd => newObj n fd.ty
      | _ => [])

/-- An assembler with its mark and the memory. -/
structure St where
  mem : Mem
  mark : Maybe
  obj : Obj

/-- Outcome of a call, as in `Verif.Model.Calls`. -/
inductive Out where
  | ok (s : St)
  | err (e : Err) (s : St)
  | panic
  | noHandle

/-- `NewBuilder` with `Reset`, e.g. /repo/ipldsch_satisfaction.go:449-467. -/
def builder (t : T) : St :=
  { mem := { at' := fun _ => T.zeroM t, next := 1 }, mark := .absent,
    obj := (newObj (rank t) t).lend (some (0, [])) .builder }

/-- `BeginMap`, e.g. 515-527, and of other types e.g. 4256. -/
def beginMap : St → Out
  | ⟨μ, m, .mk t w ma g b ph s f cm kids⟩ =>
    match t.shape with
    | .struct _ =>
      if m = .absent then
        match w with
        | some p => .ok ⟨μ, .midvalue, .mk t (some p) ma g true ph s f cm kids⟩
        | none => .ok ⟨μ.alloc (T.zeroM t), .midvalue, .mk t (some (μ.next, [])) ma g true ph s f cm kids⟩
      else .panic
    | _ => .err .wrongKind ⟨μ, m, .mk t w ma g b ph s f cm kids⟩

/-- `BeginList`, e.g. 2220-2235, and of other types e.g. 528. -/
def beginList (hint : Int) : St → Out
  | ⟨μ, m, .mk t w ma g b ph s f cm kids⟩ =>
    match t.shape with
    | .list _ =>
      if m = .absent then
        if 0 < hint then
          match w with
          | some p => .ok ⟨(μ.alloc (.arr [])).write p (.slice μ.next 0 hint.toNat), .midvalue,
              .mk t w ma g true ph s f cm kids⟩
          | none => .panic
        else .ok ⟨μ, .midvalue, .mk t w ma g true ph s f cm kids⟩
      else .panic
    | _ => .err .wrongKind ⟨μ, m, .mk t w ma g b ph s f cm kids⟩

/-- `AssignNull`, e.g. 531-544, 4262-4273. -/
def assignNull (a : St) : Out := if a.mark = .absent then .err .wrongKind a else .panic

/-- `AssignString`, e.g. 4283-4291, and of other types e.g. 554. A nil `w` panics.
-/
def assignString (x : Bytes) : St → Out
  | ⟨μ, m, .mk t w ma g b ph s f cm kids⟩ =>
    match t.shape with
    | .text =>
      if m = .value then .panic
      else match w with
        | some p => .ok ⟨μ.write p (.text x), .value, .mk t w ma g b ph s f cm kids⟩
        | none => .panic
    | _ => .err .wrongKind ⟨μ, m, .mk t w ma g b ph s f cm kids⟩

/-- `AssignLink`, e.g. 2977-2985, and of other types e.g. 560. -/
def assignLink (x : Link) : St → Out
  | ⟨μ, m, .mk t w ma g b ph s f cm kids⟩ =>
    match t.shape with
    | .link =>
      if m = .value then .panic
      else match w with
        | some p => .ok ⟨μ.write p (.link x), .value, .mk t w ma g b ph s f cm kids⟩
        | none => .panic
    | _ => .err .wrongKind ⟨μ, m, .mk t w ma g b ph s f cm kids⟩

/-- Putting things into memory one after the other. -/
def storeAll {α : Type} (st : α → Mem → Mem × MVal) : List α → Mem → Mem × List MVal
  | [], μ => (μ, [])
  | a :: r, μ => ((storeAll st r (st a μ).1).1, (st a μ).2 :: (storeAll st r (st a μ).1).2)

/-- A field, given how to put its value into memory and its zero value. -/
def storeField (st : T → Val → Mem → Mem × MVal) (zero : T → MVal) (x : FieldT × Option Val) (μ : Mem) :
    Mem × MVal :=
  if x.1.required then
    match x.2 with
    | some v => st x.1.ty v μ
    | none => (μ, zero x.1.ty)
  else if FieldT.byRef x.1 then
    match x.2 with
    | some v => ((st x.1.ty v μ).1.alloc (st x.1.ty v μ).2,
        .maybe .value (.ref (some ((st x.1.ty v μ).1.next, []))))
    | none => (μ, .maybe .absent (.ref none))
  else
    match x.2 with
    | some v => ((st x.1.ty v μ).1, .maybe .value (st x.1.ty v μ).2)
    | none => (μ, .maybe .absent (zero x.1.ty))

/-- A value of the given type as it is in memory, with what it takes besides: the
arrays of its lists and the people of a commit. The first argument bounds the
nesting. -/
def store : Nat → T → Val → Mem → Mem × MVal
  | n, t, v, μ =>
    match n, t.shape, v with
    | _, .text, .text b => (μ, .text b)
    | _, .link, .link l => (μ, .link l)
    | n + 1, .list e, .list vs =>
      let r := storeAll (store n e) vs μ
      (r.1.alloc (.arr r.2), .slice r.1.next vs.length vs.length)
    | n + 1, .struct fs, .struct l =>
      let r := storeAll (storeField (store n) (zeroM n)) (fs.zip l) μ
      (r.1, .struct r.2)
    | n, _, _ => (μ, zeroM n t)

/-- `AssignNode` with a node of the assembler's own type: structs 567-584 (a nil
`w` adopts the node), lists 2272-2283, scalars 4302-4310 (whose mark is only
compared with the finished ones). -/
def assignSelf (u : T) (v : Val) : St → Out
  | ⟨μ, m, .mk t w ma g b ph s f cm kids⟩ =>
    if u ≠ t then .noHandle
    else
      let q := store (rank t) t v μ
      match t.shape with
      | .struct _ =>
        if m = .absent then
          match w with
          | some p => .ok ⟨q.1.write p q.2, .value, .mk t (some p) ma g b ph s f cm kids⟩
          | none => .ok ⟨q.1.alloc q.2, .value, .mk t (some (q.1.next, [])) ma g b ph s f cm kids⟩
        else .panic
      | .list _ =>
        if m = .absent then
          match w with
          | some p => .ok ⟨q.1.write p q.2, .value, .mk t (some p) ma g b ph s f cm kids⟩
          | none => .panic
        else .panic
      | _ =>
        if m = .value then .panic
        else match w with
          | some p => .ok ⟨q.1.write p q.2, .value, .mk t (some p) ma g b ph s f cm kids⟩
          | none => .panic

/-- The assembler that `kids` has at `i`, changed. -/
def modifyKid (f : Obj → Obj) (i : Nat) (kids : List Obj) : List Obj :=
  match kids[i]? with
  | some k => kids.set i (f k)
  | none => kids

/-- `valueFinishTidy` of structs, typed e.g. 604-693 and representation e.g.
1371-1460, and of lists, e.g. 2301-2312. `none`: it returns false, or panics. -/
def tidy (repr : Bool) : St → Option St
  | ⟨μ, m, .mk t w ma g b _ s f cm kids⟩ =>
    match t.shape with
    | .struct fs =>
      match fs[f]? with
      | none => none
      | some fd =>
        if fd.required then
          if cm = .value then
            some ⟨μ, m, .mk t w ma g b .initial s f .absent
              (if repr then kids else modifyKid Obj.park f kids)⟩
          else none
        else
          match w with
          | none => none
          | some p =>
            if μ.mark (p.1, p.2 ++ [f]) = .value then
              some ⟨if FieldT.byRef fd then
                  μ.write (p.1, p.2 ++ [f, 0]) (.ref ((kids[f]?).bind Obj.w)) else μ,
                m, .mk t w ma g b .initial s f cm kids⟩
            else none
    | .list _ =>
      if cm = .value then
        some ⟨μ, m, .mk t w ma g b .initial s f .absent (modifyKid (fun o => o.park.reset) 0 kids)⟩
      else none
    | _ => none

/-- The state check at the start of `AssembleEntry`, `AssembleKey`, `Finish` (and
`AssembleValue` of lists), e.g. 694-709, 2314-2323. `none` is a panic. -/
def ready (repr : Bool) (a : St) : Option St :=
  match a.obj.ph with
  | .initial => some a
  | .midValue => tidy repr a
  | _ => none

/-- Where the assembler of field `i` is told to write, e.g. 712-801, 821-875. `none`
is a panic, when `ma.w` is nil. -/
def lendField (fd : FieldT) (i : Nat) (μ : Mem) (w : Option Ptr) : Option (Option Ptr × MarkAt) :=
  match w with
  | none => none
  | some p =>
    if fd.required then some (some (p.1, p.2 ++ [i]), .parent)
    else if FieldT.byRef fd then
      match μ.read (p.1, p.2 ++ [i, 0]) with
      | .ref q => some (q, .mem (p.1, p.2 ++ [i]))
      | _ => none
    else some (some (p.1, p.2 ++ [i, 0]), .mem (p.1, p.2 ++ [i]))

/-- `AssembleEntry`, e.g. 694-802. -/
def assembleEntry (repr : Bool) (x : Bytes) (a : St) : Out :=
  match a.obj.ty.shape with
  | .struct fs =>
    match ready repr a with
    | none => .panic
    | some ⟨μ, m, .mk t w ma g b ph s f cm kids⟩ =>
      match takeKey fs x s with
      | .ok (i, fd) =>
        match lendField fd i μ w with
        | none => .panic
        | some (kw, km) => .ok ⟨μ, m, .mk t w ma g b .midValue (s + (1 <<< i)) i cm
            (modifyKid (Obj.lend kw km) i kids)⟩
      | .err e => .err e ⟨μ, m, .mk t w ma g b ph s f cm kids⟩
      | .panic => .panic
  | _ => .noHandle

/-- `AssembleKey`, e.g. 803-820. -/
def assembleKey (repr : Bool) (a : St) : Out :=
  match a.obj.ty.shape with
  | .struct _ =>
    match ready repr a with
    | none => .panic
    | some ⟨μ, m, .mk t w ma g b _ s f cm kids⟩ =>
      .ok ⟨μ, m, .mk t w ma g b .midKey s f cm kids⟩
  | _ => .noHandle

/-- `AssignString` of the key assembler, e.g. 941-1021. -/
def keyAssign (x : Bytes) : St → Out
  | ⟨μ, m, .mk t w ma g b ph s f cm kids⟩ =>
    match t.shape with
    | .struct fs =>
      if ph ≠ .midKey then .panic
      else match takeKey fs x s with
        | .ok (i, _) => .ok ⟨μ, m, .mk t w ma g b .expectValue (s + (1 <<< i)) i cm kids⟩
        | .err e => .err e ⟨μ, m, .mk t w ma g b ph s f cm kids⟩
        | .panic => .panic
    | _ => .noHandle

/-- The other methods of the key assembler, e.g. 923-938, 1022-1027. -/
def keyAssignOther (a : St) : Out :=
  match a.obj.ty.shape with
  | .struct _ => .err .wrongKind a
  | _ => .noHandle

/-- `append(la.w.x, _T{})` at `p`, e.g. 2324: the memory, and where the new element
is. -/
def appendZero (grow : Nat → Nat) (e : T) (p : Ptr) (μ : Mem) : Option (Mem × Ptr) :=
  match μ.read p with
  | .slice r len cap =>
    if len < cap then
      match μ.at' r with
      | .arr vs => some ((μ.write (r, []) (.arr (vs.take len ++ T.zeroM e :: vs.drop (len + 1)))).write p
          (.slice r (len + 1) cap), (r, [len]))
      | _ => none
    else
      let old := match μ.at' r with
        | .arr vs => vs.take len
        | _ => []
      some ((μ.alloc (.arr ((if cap = 0 then [] else old) ++ [T.zeroM e]))).write p
        (.slice μ.next (len + 1) (max (len + 1) (grow len))), (μ.next, [len]))
  | _ => none

/-- `AssembleValue` of structs, e.g. 821-875, and of lists, e.g. 2314-2331. -/
def assembleValue (repr : Bool) (grow : Nat → Nat) (a : St) : Out :=
  match a.obj.ty.shape with
  | .struct fs =>
    match a with
    | ⟨μ, m, .mk t w ma g b .expectValue s f cm kids⟩ =>
      match fs[f]? with
      | some fd =>
        match lendField fd f μ w with
        | none => .panic
        | some (kw, km) => .ok ⟨μ, m, .mk t w ma g b .midValue s f cm (modifyKid (Obj.lend kw km) f kids)⟩
      | none => .panic
    | _ => .panic
  | .list e =>
    match ready repr a with
    | none => .panic
    | some ⟨μ, m, .mk t w ma g b _ s f cm kids⟩ =>
      match w.bind fun p => appendZero grow e p μ with
      | none => .panic
      | some (μ', row) => .ok ⟨μ', m, .mk t w ma g b .midValue s f cm
          (modifyKid (Obj.lend (some row) .parent) 0 kids)⟩
  | _ => .noHandle

/-- `Finish` of structs, e.g. 876-913, and of lists, e.g. 2332-2346. -/
def finish (repr : Bool) (a : St) : Out :=
  match a.obj.ty.shape with
  | .struct fs =>
    match ready repr a with
    | none => .panic
    | some ⟨μ, m, .mk t w ma g b ph s f cm kids⟩ =>
      if s &&& sufficient fs ≠ sufficient fs then
        .err .missingField ⟨μ, m, .mk t w ma g b ph s f cm kids⟩
      else .ok ⟨μ, .value, .mk t w ma g b .finished s f cm kids⟩
  | .list _ =>
    match ready repr a with
    | none => .panic
    | some ⟨μ, _, .mk t w ma g b _ s f cm kids⟩ => .ok ⟨μ, .value, .mk t w ma g b .finished s f cm kids⟩
  | _ => .noHandle

/-- A call on an assembler, if the client has ever got the handle that the call
needs. The key assembler is the same object as the map assembler, and panics or
refuses unless `AssembleKey` has just been called, so it is not kept account of. -/
def call (repr : Bool) (grow : Nat → Nat) (a : St) (c : Call) : Out :=
  let own (o : Out) := if a.obj.given then o else .noHandle
  let inner (o : Out) := if a.obj.begun then o else .noHandle
  match c with
  | .beginMap => own (beginMap a)
  | .beginList h => own (beginList h a)
  | .assignNull => own (assignNull a)
  | .assignOther => own (.err .wrongKind a)
  | .assignString b => own (assignString b a)
  | .assignLink l => own (assignLink l a)
  | .assignSelf t v => own (assignSelf t v a)
  | .assembleEntry x => inner (assembleEntry repr x a)
  | .assembleKey => inner (assembleKey repr a)
  | .keyAssign x => inner (keyAssign x a)
  | .keyAssignOther => inner (keyAssignOther a)
  | .assembleValue => inner (assembleValue repr grow a)
  | .finish => inner (finish repr a)

/-- Storing what a call on the assembler `i` has left behind. -/
def putBack (a : St) (i : Nat) (k : St) : St :=
  match a.obj, k.obj.m with
  | .mk t w ma g b ph s f cm kids, .mem p =>
    ⟨k.mem.setMark p k.mark, a.mark, .mk t w ma g b ph s f cm (kids.set i k.obj)⟩
  | .mk t w ma g b ph s f _ kids, _ =>
    ⟨k.mem, a.mark, .mk t w ma g b ph s f k.mark (kids.set i k.obj)⟩

/-- The assembler `i` of an assembler, as a call on it finds it. -/
def kid (a : St) (i : Nat) : Option St :=
  match a.obj.kids[i]? with
  | none => none
  | some k => some ⟨a.mem, match k.m with | .mem p => a.mem.mark p | _ => a.obj.cm, k⟩

/-- A call on any handle. The handle of the builder is `[]`; `i :: h` is the handle
`h` of the assembler of field `i` (0 for the elements of a list). -/
def callAt (repr : Bool) (grow : Nat → Nat) : List Nat → Call → St → Out
  | [], c, a => call repr grow a c
  | i :: h, c, a =>
    match kid a i with
    | none => .noHandle
    | some k =>
      match callAt repr grow h c k with
      | .ok k => .ok (putBack a i k)
      | .err e k => .err e (putBack a i k)
      | .panic => .panic
      | .noHandle => .noHandle

/-- A value in memory as the methods of its node show it; the first argument bounds
the nesting. -/
def load : Nat → T → Mem → MVal → Val
  | n, t, μ, v =>
    match n, t.shape, v with
    | _, .text, .text b => .text b
    | _, .link, .link l => .link l
    | n + 1, .list e, .slice r len _ =>
      match μ.at' r with
      | .arr vs => .list ((vs.take len).map (load n e μ))
      | _ => .list []
    | n + 1, .struct fs, .struct l =>
      .struct ((fs.zip l).map fun x =>
        if x.1.required then some (load n x.1.ty μ x.2)
        else match x.2 with
          | .maybe .value (.ref (some p)) => some (load n x.1.ty μ (μ.read p))
          | .maybe .value v => some (load n x.1.ty μ v)
          | _ => none)
    | _, _, _ => T.zero t

/-- `Build`, e.g. 457-462. -/
def build (a : St) : Res Val :=
  if a.mark = .value then
    match a.obj.w with
    | some p => .ok (load (rank a.obj.ty) a.obj.ty a.mem (a.mem.read p))
    | none => .panic
  else .panic

end Verif.Handles
