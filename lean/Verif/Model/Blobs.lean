import Verif.Model.Decode
import Verif.Model.Reader

/-!
# Blobs and the memory of their bytes

A blob is a `[]byte`, /repo/ipldsch_satisfaction.go:11-17 and 96-98: its node holds a
slice, which is stored as given and returned as it is. Modelled are the arrays, the
nodes (`_Blob`), the builders, and what a client holds: slices, nodes and builders.
-/

namespace Verif.Blobs

/-- A `[]byte`: elements `off` to `off + len` of an array; up to `off + cap` they can be
reached by slicing again. -/
structure Slice where
  arr : Nat
  off : Nat
  len : Nat
  cap : Nat
  deriving DecidableEq

/-- `_Blob__Builder`, /repo/ipldsch_satisfaction.go:113-135: where the node is, and
whether it was assigned (`*nb.m == schema.Maybe_Value`). `Maybe_Null` and `allowNull`
do not occur in a builder. -/
structure Builder where
  w : Nat
  done : Bool

/-- The memory, and what the client has got hold of. Nodes are named by where they are. -/
structure World where
  arrays : List Bytes
  cells : List Slice
  builders : List Builder
  held : List Slice
  nodes : List Nat

/-- What a client can do. Slices, builders and nodes are named by their number among
those that the client holds. -/
inductive Act where
  /-- make a slice with these bytes, and room after them -/
  | alloc (bs spare : Bytes)
  /-- `s[lo:hi]` -/
  | reslice (h lo hi : Nat)
  /-- `s[i] = c` -/
  | poke (h i : Nat) (c : UInt8)
  | newBuilder
  | reset (k : Nat)
  /-- `AssignBytes(s)`, or `AssignNode` of a node of another type that returns `s` -/
  | assignBytes (k h : Nat)
  /-- `AssignNode` of a blob -/
  | assignNode (k n : Nat)
  /-- `AssignNull`, `AssignNode(null)` -/
  | assignNull (k : Nat)
  /-- any other call of the assembler -/
  | assignOther (k : Nat)
  | build (k : Nat)
  /-- `FromBytes(s)` of the prototype -/
  | fromBytes (h : Nat)
  /-- `AsBytes` or `Bytes` -/
  | asBytes (n : Nat)
  /-- `DecodeBlob` into a builder; `spare` is the unused rest of the `bytes.Buffer` -/
  | decode (k : Nat) (s : Stream) (spare : Bytes)

/-- How a call ends. -/
inductive Said where
  | ok
  | err (e : Err)
  | panic
  /-- the client does not hold what it names -/
  | none
  deriving DecidableEq

/-- The zero value of `[]byte`. -/
def nil : Slice := ⟨0, 0, 0, 0⟩

/-- `AssignBytes`, /repo/ipldsch_satisfaction.go:165-173. -/
def assign (k : Nat) (s : Slice) (w : World) : World × Said :=
  match w.builders[k]? with
  | .none => (w, .none)
  | some b =>
    if b.done then (w, .panic)
    else ({ w with cells := w.cells.set b.w s, builders := w.builders.set k { b with done := true } }, .ok)

/-- What the client's act does. -/
def step (a : Act) (w : World) : World × Said :=
  match a with
  | .alloc bs spare =>
    ({ w with
        arrays := w.arrays ++ [bs ++ spare]
        held := w.held ++ [⟨w.arrays.length, 0, bs.length, (bs ++ spare).length⟩] }, .ok)
  | .reslice h lo hi =>
    match w.held[h]? with
    | .none => (w, .none)
    | some s =>
      if lo ≤ hi ∧ hi ≤ s.cap then
        ({ w with held := w.held ++ [⟨s.arr, s.off + lo, hi - lo, s.cap - lo⟩] }, .ok)
      else (w, .panic)
  | .poke h i c =>
    match w.held[h]? with
    | .none => (w, .none)
    | some s =>
      if i < s.len then ({ w with arrays := w.arrays.modify s.arr (fun x => x.set (s.off + i) c) }, .ok)
      else (w, .panic)
  -- /repo/ipldsch_satisfaction.go:107-111 and 125-129
  | .newBuilder =>
    ({ w with cells := w.cells ++ [nil], builders := w.builders ++ [⟨w.cells.length, false⟩] }, .ok)
  | .reset k =>
    match w.builders[k]? with
    | .none => (w, .none)
    | some _ => ({ w with cells := w.cells ++ [nil], builders := w.builders.set k ⟨w.cells.length, false⟩ }, .ok)
  | .assignBytes k h =>
    match w.held[h]? with
    | .none => (w, .none)
    | some s => assign k s w
  -- /repo/ipldsch_satisfaction.go:177-190: `*na.w = *v2`
  | .assignNode k n =>
    match w.nodes[n]? with
    | .none => (w, .none)
    | some x => assign k (w.cells.getD x nil) w
  -- /repo/ipldsch_satisfaction.go:144-154
  | .assignNull k =>
    match w.builders[k]? with
    | .none => (w, .none)
    | some b => if b.done then (w, .panic) else (w, .err .wrongKind)
  -- /repo/ipldsch_satisfaction.go:138-143, 155-164 and 174-176
  | .assignOther k =>
    match w.builders[k]? with
    | .none => (w, .none)
    | some _ => (w, .err .wrongKind)
  -- /repo/ipldsch_satisfaction.go:117-122
  | .build k =>
    match w.builders[k]? with
    | .none => (w, .none)
    | some b => if b.done then ({ w with nodes := w.nodes ++ [b.w] }, .ok) else (w, .panic)
  -- /repo/ipldsch_satisfaction.go:14-17
  | .fromBytes h =>
    match w.held[h]? with
    | .none => (w, .none)
    | some s => ({ w with cells := w.cells ++ [s], nodes := w.nodes ++ [w.cells.length] }, .ok)
  -- /repo/ipldsch_satisfaction.go:11-13 and 96-98
  | .asBytes n =>
    match w.nodes[n]? with
    | .none => (w, .none)
    | some x => ({ w with held := w.held ++ [w.cells.getD x nil] }, .ok)
  -- /repo/blob.go:13-44: the buffer is used for nothing else
  | .decode k s spare =>
    match w.builders[k]? with
    | .none => (w, .none)
    | some _ =>
      match decodeBlob s with
      | .err e => (w, .err e)
      | .panic => (w, .panic)
      | .ok d =>
        assign k ⟨w.arrays.length, 0, d.length, (d ++ spare).length⟩ { w with arrays := w.arrays ++ [d ++ spare] }

/-- Nothing but an empty array for the zero value. -/
def start : World := ⟨[[]], [], [], [], []⟩

/-- Panics are recovered from. -/
def play : List Act → World → World
  | [], w => w
  | a :: as, w => play as (step a w).1

/-- The bytes of a slice. -/
def World.bytes (w : World) (s : Slice) : Bytes := ((w.arrays.getD s.arr []).drop s.off).take s.len

/-- The bytes of a node: what is encoded for it (/repo/blob.go:46-54). -/
def World.content (w : World) (x : Nat) : Bytes := w.bytes (w.cells.getD x nil)

end Verif.Blobs
