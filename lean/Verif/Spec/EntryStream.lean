import Verif.Spec.Objects

/-!
# Where the entries of a tree end

What is left of a tree when no further entry can be read, for a reader that ends with
the error `fin`, and the error that is reported there.
-/

namespace Verif.Spec

inductive EntryEnd (fin : Err) : Bytes → Err → Prop
  /-- nothing, or a mode without the space behind it -/
  | mode (m : Bytes) (hm : SP ∉ m) : EntryEnd fin m fin
  /-- a name without the NUL behind it -/
  | name (m n : Bytes) (hm : SP ∉ m) (hn : NUL ∉ n) : EntryEnd fin (m ++ SP :: n) fin
  /-- a mode and a name without a hash -/
  | bare (m n : Bytes) (hm : SP ∉ m) (hn : NUL ∉ n) : EntryEnd fin (m ++ SP :: (n ++ [NUL])) fin
  /-- a part of a hash -/
  | hash (m n h : Bytes) (hm : SP ∉ m) (hn : NUL ∉ n) (h0 : h ≠ []) (hl : h.length < 20) :
      EntryEnd fin (m ++ SP :: (n ++ NUL :: h)) (if fin = .eof then .unexpectedEof else fin)

end Verif.Spec
