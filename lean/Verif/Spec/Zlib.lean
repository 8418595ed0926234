import Verif.Model.Reader

/-!
# Checksums (RFC 1950)
-/

namespace Verif.Spec

/-- Adler-32: one plus the sum of the bytes, and the sum over all prefixes of such sums,
both modulo 65521; four bytes, the second sum first. -/
def AdlerIs (b : Bytes) (t : Bytes) : Prop :=
  ∃ x y, x < 65521 ∧ y < 65521 ∧
    x % 65521 = (1 + (b.map UInt8.toNat).sum) % 65521 ∧
    y % 65521 = ((List.range b.length).map fun i => 1 + ((b.take (i + 1)).map UInt8.toNat).sum).sum % 65521 ∧
    t = [UInt8.ofNat (y / 256), UInt8.ofNat (y % 256), UInt8.ofNat (x / 256), UInt8.ofNat (x % 256)]

/-- A compressed object is intact: decompression went to its end, and the checksum of
the data follows. -/
def Intact (fin : Err) (out : Bytes) (after : Bytes) : Prop :=
  fin = .eof ∧ ∃ t r, after = t ++ r ∧ AdlerIs out t

end Verif.Spec
