/-! # Specification: numbers in groups of seven bits -/

namespace Fleece.Spec

/-- The bytes are the number `n` in groups of seven bits, the lowest first; each byte from 128 says that another follows. Unlike
`leb128`, the form may be longer than needed. -/
inductive Groups : List UInt8 → Nat → Prop where
  | last {b : UInt8} (h : b.toNat < 128) : Groups [b] b.toNat
  | more {b : UInt8} {bs : List UInt8} {n : Nat} (h : 128 ≤ b.toNat) (t : Groups bs n) :
      Groups (b :: bs) (b.toNat - 128 + 128 * n)

end Fleece.Spec
