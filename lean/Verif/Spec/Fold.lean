import Verif.Basic

/-!
# Specification: folding long lines

A text with a line feed put in wherever a line reaches the length `N`.
-/

namespace Verif.Spec

open Verif

/-- `Folded N x y`: `y` is `x` with every line of `N` bytes or more broken after `N`
bytes. If the `N`th byte is a CR, the line is broken before it, with CR LF, so that
the CR starts the next line. A line that ends in LF is long if the LF is not among its
first `N` bytes. -/
inductive Folded (N : Nat) : Bytes → Bytes → Prop where
  | last {a : Bytes} (hl : LF ∉ a) (hn : a.length < N) : Folded N a a
  | line {a x y : Bytes} (hl : LF ∉ a) (hn : a.length < N) (h : Folded N x y) :
    Folded N (a ++ LF :: x) (a ++ LF :: y)
  | cut {a x y : Bytes} (hl : LF ∉ a) (hn : a.length = N) (hc : a.getLast? ≠ some CR)
    (h : Folded N x y) : Folded N (a ++ x) (a ++ LF :: y)
  | cutCR {a x y : Bytes} (hl : LF ∉ a) (hn : a.length + 1 = N) (h : Folded N (CR :: x) y) :
    Folded N (a ++ CR :: x) (a ++ CR :: LF :: y)

end Verif.Spec
