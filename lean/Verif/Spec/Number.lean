import Verif.Model.Value

/-!
# Specification: the numbers in a document

As the format defines them: a byte `0x0.` begins a 12-bit two's complement number, a byte `0x10 + c` (`c < 8`) is followed by
a two's complement number of `c + 1` bytes, a byte `0x18 + c` by an unsigned one; the least significant byte is first.
-/

namespace Fleece.Spec

/-- Two's complement with the given number of bits. -/
def twos (bits n : Nat) : Int := if n < 2 ^ (bits - 1) then (n : Int) else (n : Int) - 2 ^ bits

/-- The number whose digits to base 256 are given, the least significant first. -/
def littleEndian (bs : List UInt8) : Nat := bs.foldr (fun b acc => acc * 256 + b.toNat) 0

/-- The value at `pos` is the integer `z`. -/
inductive Stores (data : List UInt8) (pos : Nat) : Int → Prop where
  | short {b0 b1 : UInt8} (h0 : data[pos]? = some b0) (tag : b0.toNat < 16) (h1 : data[pos + 1]? = some b1) :
      Stores data pos (twos 12 (b0.toNat * 256 + b1.toNat))
  | int {c : Nat} {bs : List UInt8} (hc : c < 8) (h0 : data[pos]? = some (UInt8.ofNat (16 + c)))
      (len : bs.length = c + 1) (h1 : bs <+: data.drop (pos + 1)) :
      Stores data pos (twos (8 * (c + 1)) (littleEndian bs))
  | unsigned {c : Nat} {bs : List UInt8} (hc : c < 8) (h0 : data[pos]? = some (UInt8.ofNat (24 + c)))
      (len : bs.length = c + 1) (h1 : bs <+: data.drop (pos + 1)) : Stores data pos (littleEndian bs)

/-- A signed number written with fewer than eight bytes: its first byte is `0x10` to `0x16`. -/
def Narrow (data : List UInt8) (pos : Nat) : Prop := ∃ b, data[pos]? = some b ∧ 16 ≤ b.toNat ∧ b.toNat < 23

/-- An unsigned number: its first byte is `0x18` to `0x1F`. -/
def Unsigned (data : List UInt8) (pos : Nat) : Prop := ∃ b, data[pos]? = some b ∧ 24 ≤ b.toNat ∧ b.toNat < 32

end Fleece.Spec
