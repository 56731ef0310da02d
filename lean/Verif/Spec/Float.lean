import Verif.Spec.Number

/-!
# Specification: floating-point numbers

What the bits of an `f64` and of an `f32` stand for (IEEE 754), which number a document holds, and what Rust's conversions do
(The Rust Reference, "Numeric cast"): to an integer by dropping the fraction, limited to the range of the target, NaN to 0; from
`f32` to `f64` without loss.
-/

namespace Fleece.Spec

/-- The unit in which finite numbers are counted: `2^-1074`, the smallest positive `f64`. This is how many make 1. -/
def one : Nat := 2 ^ 1074

/-- A floating-point number; `finite neg n` is `n / 2^1074`, negative if `neg`. -/
inductive FloatValue where
  | nan
  | infinite (neg : Bool)
  | finite (neg : Bool) (n : Nat)
deriving DecidableEq

/-- The number with a sign, `eb` bits of exponent and `fb` bits of fraction. `unit` is the exponent of 2 for the last place of the
numbers without an implicit bit, in the unit above. -/
def floatValue (eb fb unit bits : Nat) : FloatValue :=
  let frac := bits % 2 ^ fb
  let e := bits / 2 ^ fb % 2 ^ eb
  let neg := decide (bits / 2 ^ (fb + eb) % 2 = 1)
  if e = 2 ^ eb - 1 then if frac = 0 then .infinite neg else .nan
  else if e = 0 then .finite neg (frac * 2 ^ unit)
  else .finite neg ((2 ^ fb + frac) * 2 ^ (unit + (e - 1)))

/-- binary64: the last place of the smallest numbers is `2^-1074`. -/
def f64Value (bits : UInt64) : FloatValue := floatValue 11 52 0 bits.toNat

/-- binary32: the last place of the smallest numbers is `2^-149`. -/
def f32Value (bits : UInt32) : FloatValue := floatValue 8 23 925 bits.toNat

/-- The number without its fraction. -/
def intPart (neg : Bool) (n : Nat) : Int := if neg then -((n / one : Nat) : Int) else ((n / one : Nat) : Int)

/-- `as` from a float to an integer type with the given range. -/
def FloatValue.toInteger (lo hi : Int) : FloatValue → Int
  | .nan => 0
  | .infinite neg => if neg then lo else hi
  | .finite neg n => max lo (min hi (intPart neg n))

/-- The conversions are those of Rust. -/
structure Ieee (F : FloatOps) : Prop where
  toI64 : ∀ b, F.toI64 b = (f64Value b).toInteger (-2 ^ 63) (2 ^ 63 - 1)
  toI16 : ∀ b, F.toI16 b = (f64Value b).toInteger (-2 ^ 15) (2 ^ 15 - 1)
  toU16 : ∀ b, (F.toU16 b : Int) = (f64Value b).toInteger 0 (2 ^ 16 - 1)
  widen : ∀ b, f64Value (F.widen b) = f32Value b
  narrow : ∀ b, f32Value b ≠ .nan → F.narrow (F.widen b) = b
  ofI64 : ∀ z : Int, z.natAbs ≤ 2 ^ 53 → f64Value (F.ofI64 z) = .finite (decide (z < 0)) (z.natAbs * one)

/-- The value at `pos` is a floating-point number: a byte `0x20` to `0x27`, a byte that is ignored, and the four bytes of a
binary32, or a byte `0x28` to `0x2F`, a byte that is ignored, and the eight bytes of a binary64; least significant first. -/
inductive StoresFloat (data : List UInt8) (pos : Nat) : FloatValue → Prop where
  | single {b0 : UInt8} {bs : List UInt8} (h0 : data[pos]? = some b0) (lo : 0x20 ≤ b0.toNat) (hi : b0.toNat < 0x28)
      (len : bs.length = 4) (h1 : bs <+: data.drop (pos + 2)) : StoresFloat data pos (f32Value (UInt32.ofNat (littleEndian bs)))
  | double {b0 : UInt8} {bs : List UInt8} (h0 : data[pos]? = some b0) (lo : 0x28 ≤ b0.toNat) (hi : b0.toNat < 0x30)
      (len : bs.length = 8) (h1 : bs <+: data.drop (pos + 2)) : StoresFloat data pos (f64Value (UInt64.ofNat (littleEndian bs)))

end Fleece.Spec
