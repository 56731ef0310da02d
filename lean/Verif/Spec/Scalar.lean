import Verif.Spec.Tree
import Verif.Model.Encodable

/-!
# What a user means by a scalar

`Scalar.tree` is the value that reading back should give; `Scalar.Survives` is the class of scalars which this version
of the code writes correctly. Neither mentions how anything is encoded.
-/

namespace Fleece

/-- The value. An `f32` is compared after the (exact) conversion to `f64` that every accessor makes. -/
def Scalar.tree (F : FloatOps) : Scalar → Tree
  | i8 n => .int n.toInt
  | i16 n => .int n.toInt
  | i32 n => .int n.toInt
  | i64 n => .int n.toInt
  | u8 n => .int n.toNat
  | u16 n => .int n.toNat
  | u32 n => .int n.toNat
  | u64 n => .int n.toNat
  | f32 b => .float (F.widen b)
  | f64 b => .float b
  | bool b => .bool b
  | null => .null
  | undefined => .undefined
  | str s => .str s.bytes
  | data d => .data d

/-- The number, if it is of a signed type. -/
def Scalar.signed : Scalar → Option Int
  | i8 n => some n.toInt
  | i16 n => some n.toInt
  | i32 n => some n.toInt
  | i64 n => some n.toInt
  | _ => none

/-- The number, if it is of an unsigned type. -/
def Scalar.unsigned : Scalar → Option Nat
  | u8 n => some n.toNat
  | u16 n => some n.toNat
  | u32 n => some n.toNat
  | u64 n => some n.toNat
  | _ => none

/-- A signed number the code keeps. -/
def ShortRange (n : Int) : Prop := -2048 ≤ n ∧ n ≤ 2047

instance (n : Int) : Decidable (ShortRange n) := by unfold ShortRange; infer_instance

/-- An unsigned number above 2047 the code keeps: with `j` trailing zero bits, the top `⌈j/8⌉` of its eight bytes are
zero. -/
def WordKept (n : Nat) : Prop := ∀ j, 2 ^ j ∣ n → n * 256 ^ ((j + 7) / 8) < 2 ^ 64

/-- The scalars the encoder writes correctly. The bound on strings and data is a fact of Rust: no slice is longer than
`isize::MAX`. -/
def Scalar.Survives : Scalar → Prop
  | i8 _ | u8 _ | u32 _ | f32 _ | f64 _ | bool _ | null | undefined => True
  | i16 n => ShortRange n.toInt
  | i32 n => ShortRange n.toInt
  | i64 n => ShortRange n.toInt
  | u16 n => n.toNat ≤ 2047
  | u64 n => n.toNat ≤ 2047 ∨ WordKept n.toNat
  | str s => s.bytes.length < 2 ^ 63
  | data d => d.length < 2 ^ 63

/-- Strings and data of at most one byte. -/
def Scalar.Tiny : Scalar → Prop
  | str s => s.bytes.length ≤ 1
  | data d => d.length ≤ 1
  | _ => False

end Fleece
