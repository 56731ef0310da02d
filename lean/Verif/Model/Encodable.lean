import Verif.Model.Value

/-!
# `src/value/sized.rs` and `src/encoder/encodable.rs`: writing single values

A writer is given the length of the destination buffer and returns the bytes it puts at its start:
`some bs` is `Some(bs.len())`, `none` is `None` (the buffer is too short). All callers hand over a zeroed
buffer, so nothing else of it matters.
-/

namespace Fleece

/-- The low `n` bytes of a number, least significant first (`to_le_bytes()[..n]`). -/
def leBytes : Nat → Nat → List UInt8
  | 0, _ => []
  | n + 1, v => UInt8.ofNat v :: leBytes n (v / 256)

/-- `SizedValue`, sized.rs:6-8: four bytes. -/
structure SizedValue where
  b0 : UInt8
  b1 : UInt8
  b2 : UInt8
  b3 : UInt8
deriving DecidableEq, Repr

namespace SizedValue

/-- `SizedValue::as_bytes`, sized.rs:57-59. -/
def bytes (s : SizedValue) : List UInt8 := [s.b0, s.b1, s.b2, s.b3]

/-- `SizedValue::new_narrow`, sized.rs:14-18. -/
def newNarrow (a b : UInt8) : SizedValue := ⟨a, b, 0, 0⟩

/-- `pointer::MAX_NARROW`, pointer.rs:12. -/
def maxNarrow : Nat := 0x3fff
/-- `pointer::MAX_WIDE`, pointer.rs:13. -/
def maxWide : Nat := 0x3fffffff

/-- `SizedValue::new_pointer`, sized.rs:22-30. The offset is stored unshifted, big-endian. -/
def newPointer (offset : Nat) : Option SizedValue :=
  if offset > maxWide then none
  else some ⟨UInt8.ofNat (offset / 2 ^ 24) ||| 0x80, UInt8.ofNat (offset / 2 ^ 16), UInt8.ofNat (offset / 2 ^ 8),
    UInt8.ofNat offset⟩

/-- `SizedValue::value_type`, sized.rs:34-36. -/
def type (s : SizedValue) : ValueType := ValueType.fromByte s.b0

/-- `SizedValue::pointer_offset`, sized.rs:39-43. -/
def pointerOffset (s : SizedValue) : Nat := beNat [s.b0 ^^^ 0x80, s.b1, s.b2, s.b3]

/-- `SizedValue::actual_pointer_offset`, sized.rs:47-49: a `usize` subtraction, then `as u32`. -/
def actualPointerOffset (dbg : Bool) (s : SizedValue) (outLen : Nat) : Exec Nat := do
  let d ← usizeSub dbg outLen s.pointerOffset
  pure (d % 2 ^ 32)

/-- `self.as_value().to_str()`, sized.rs:52-54 with value/mod.rs:323-328. It is only called on the four bytes of a
`DictKey::Inline`, made from a string of at most one byte, where `to_str` returns; other outcomes are mapped to `""`
here. -/
def str (s : SizedValue) : List UInt8 :=
  match Val.toStr ⟨s.bytes, 0, true⟩ ⟨0, 4⟩ with
  | .ok r => r
  | _ => []

/-- `<SizedValue as Encodable>::write_fleece_to`, encodable.rs:573-614. The `u16` conversion of line 591 cannot fail:
the offset is at most `MAX_NARROW`. -/
def writeTo (s : SizedValue) (buf : Nat) (wide : Bool) : Option (List UInt8) :=
  if s.type = .pointer then
    let offset := s.pointerOffset
    if offset > maxNarrow ∨ wide = true then
      if buf < 4 then none
      else
        let h := offset / 2
        some [UInt8.ofNat (h / 2 ^ 24) ||| 0x80, UInt8.ofNat (h / 2 ^ 16), UInt8.ofNat (h / 2 ^ 8), UInt8.ofNat h]
    else if buf < 2 then none
    else
      let h := offset / 2
      some [UInt8.ofNat (h / 2 ^ 8) ||| 0x80, UInt8.ofNat h]
  else if wide then
    if buf < 4 then none else some s.bytes
  else
    if buf < 2 then none else some [s.b0 &&& 0xBF, s.b1]

/-- `<SizedValue as Encodable>::fleece_size`, encodable.rs:616-626. -/
def size (s : SizedValue) : Nat :=
  if s.type = .pointer then (if s.pointerOffset > maxNarrow then 4 else 2) else 2

end SizedValue

/-! ## Integers -/

/-- `<i16 as Encodable>::to_sized_value`, encodable.rs:276-284. `to_be_bytes` of the two's complement. -/
def i16Sized (n : Int) : Option SizedValue :=
  if n > 2047 ∨ n < -2048 then none
  else
    let u := (n % 2 ^ 16).toNat
    some (SizedValue.newNarrow (UInt8.ofNat (u / 256) &&& 0x0F) (UInt8.ofNat u))

/-- `<i64 as Encodable>::to_sized_value`, encodable.rs:59-65, with its `||`. `as i16` keeps the low 16 bits. -/
def i64Sized (n : Int) : Option SizedValue :=
  if n ≤ 2047 ∨ n ≥ -2048 then i16Sized (Int.bmod n (2 ^ 16)) else none

/-- `write_fleece_to` of `i16` (`is16`, encodable.rs:261-270) and of `i64` (encodable.rs:32-46), which call each other.
The condition of `i64` is true of every number, so the rest of its body, lines 38-45, cannot be reached and is
not modelled (`panic`). -/
def writeSigned : (fuel : Nat) → (is16 : Bool) → Int → (buf : Nat) → (wide : Bool) → Exec (Option (List UInt8))
  | 0, _, _, _, _ => .diverge
  | fuel + 1, true, n, buf, wide =>
    if n > 2047 ∨ n < -2048 then writeSigned fuel false n buf wide
    else match i16Sized n with
      | some s => .ok (s.writeTo buf wide)
      | none => .panic   -- `unreachable!()`
  | fuel + 1, false, n, buf, wide =>
    if n ≤ 2047 ∨ n ≥ -2048 then writeSigned fuel true (Int.bmod n (2 ^ 16)) buf wide
    else .panic

/-- `<u16 as Encodable>::to_sized_value`, encodable.rs:249-256. -/
def u16Sized (n : Nat) : Option SizedValue :=
  if n > 2047 then none else some (SizedValue.newNarrow (UInt8.ofNat (n / 256)) (UInt8.ofNat n))

/-- Number of trailing zero bits of a nonzero `u64` (`u64::trailing_zeros`). -/
def trailingZeros : (fuel : Nat) → Nat → Nat
  | 0, _ => 0
  | fuel + 1, n => if n % 2 = 0 then trailingZeros fuel (n / 2) + 1 else 0

/-- `<u64 as Encodable>::fleece_size`, encodable.rs:87-94. -/
def u64Size (n : Nat) : Nat :=
  if n ≤ 2047 then 2 else 8 - (trailingZeros 64 n + 7) / 8 + 1

/-- `<u64 as Encodable>::write_fleece_to`, encodable.rs:71-85, for numbers above 2047: lines 77-84.
`(byte_count as u8) - 1` underflows if `byte_count` is 0. -/
def writeU64Big (dbg : Bool) (n buf : Nat) : Exec (Option (List UInt8)) :=
  let size := u64Size n
  if size > buf then .ok none
  else
    let count := size - 1
    if count = 0 then (if dbg then .panic else .ok (some [0xFF]))
    else .ok (some ((0x10 ||| 0x08 ||| UInt8.ofNat (count - 1)) :: leBytes count n))

/-- `<u16 as Encodable>::write_fleece_to`, encodable.rs:234-243. Above 2047 it calls the `u64` writer, which does not
come back. -/
def writeU16 (dbg : Bool) (n buf : Nat) (wide : Bool) : Exec (Option (List UInt8)) :=
  if n > 2047 then writeU64Big dbg n buf
  else match u16Sized n with
    | some s => .ok (s.writeTo buf wide)
    | none => .panic   -- `unreachable!()`

/-- `<u64 as Encodable>::write_fleece_to`, encodable.rs:71-85. -/
def writeU64 (dbg : Bool) (n buf : Nat) (wide : Bool) : Exec (Option (List UInt8)) :=
  if n ≤ 2047 then writeU16 dbg n buf wide else writeU64Big dbg n buf

/-! ## Constants, strings and data -/

/-- `write_fleece_constant`, encodable.rs:360-376. -/
def writeConstant (b : UInt8) (buf : Nat) (wide : Bool) : Option (List UInt8) :=
  if wide then (if buf < 4 then none else some [b, 0, 0, 0])
  else (if buf < 2 then none else some [b, 0])

/-- `fleece_size` of `[u8]` and `str`, encodable.rs:502-508, 529-531. -/
def dataSize (len : Nat) : Nat :=
  if len ≤ 1 then 2
  else if len ≤ 0x0E then 1 + len
  else 1 + Varint.sizeRequired len + len

/-- `write_fleece_string`, encodable.rs:434-490. The caller has checked `dataSize ≤ buf`; `buf[1..4]` and `buf[2..4]`
panic if a wide tiny value is given less than 4 bytes. -/
def writeString (tag : UInt8) (s : List UInt8) (buf : Nat) (wide : Bool) : Exec (Option (List UInt8)) :=
  match s with
  | [] => if wide then (if buf < 4 then .panic else .ok (some [tag, 0, 0, 0])) else .ok (some [tag, 0])
  | [c] =>
    if wide then (if buf < 4 then .panic else .ok (some [tag ||| 1, c, 0, 0])) else .ok (some [tag ||| 1, c])
  | s =>
    if s.length ≤ 0x0E then .ok (some ((tag ||| UInt8.ofNat s.length) :: s))
    else .ok (some ((tag ||| 0x0F) :: (Varint.write s.length ++ s)))

/-- `write_fleece_to` of `[u8]` and `str`, encodable.rs:494-500, 521-527. -/
def writeData (tag : UInt8) (s : List UInt8) (buf : Nat) (wide : Bool) : Exec (Option (List UInt8)) :=
  if dataSize s.length > buf then .ok none else writeString tag s buf wide

/-- `to_sized_value` of `[u8]` and `str`, encodable.rs:510-516, 533-542. -/
def dataSized (tag : UInt8) (s : List UInt8) : Option SizedValue :=
  match s with
  | [] => some (SizedValue.newNarrow tag 0)
  | [c] => some (SizedValue.newNarrow (tag ||| 1) c)
  | _ => none

/-! ## Collection headers -/

/-- `fleece_size` of `value_stack::Array` and `value_stack::Dict`, encodable.rs:675-682, 705-712. -/
def headerSize (len : Nat) : Nat := 2 + if len ≥ 0x07FF then Varint.sizeRequired len else 0

/-- `write_valuestack_collection`, encodable.rs:635-657; the callers (encodable.rs:662-673, 692-703) have checked
the buffer length. -/
def writeHeader (tag : UInt8) (len buf : Nat) (wide : Bool) : Option (List UInt8) :=
  if headerSize len > buf then none
  else
    let inline := min len 0x07FF
    let b0 := if wide then 0x08 ||| tag ||| UInt8.ofNat (inline / 256) else tag ||| UInt8.ofNat (inline / 256)
    let b1 := UInt8.ofNat (inline % 256)
    some (b0 :: b1 :: if len ≥ 0x07FF then Varint.write len else [])

/-! ## Everything that can be written -/

/-- The types a user can pass to `Encoder::write_value`, `MutableArray::push` etc. (`Encodable` is sealed).
References (encodable.rs:11-27) and `Some` (545-569) behave as the value itself, `None::<T>` as `NullValue`, `isize` and
`usize` (106-200) on a 64-bit target as `i64` and `u64`. Floats are their bit patterns. -/
inductive Scalar where
  | i8 (n : Int8) | i16 (n : Int16) | i32 (n : Int32) | i64 (n : Int64)
  | u8 (n : UInt8) | u16 (n : UInt16) | u32 (n : UInt32) | u64 (n : UInt64)
  | f32 (bits : UInt32) | f64 (bits : UInt64)
  | bool (b : Bool) | null | undefined
  | str (s : RStr) | data (d : List UInt8)

namespace Scalar

/-- Recursion depth given to `writeSigned`; when it does not suffice no depth does (`Props.C03`). -/
def depth : Nat := 3

/-- `Encodable::write_fleece_to`, by type: `i8` encodable.rs:304-306, `i16` 261-270, `i32` 204-206, `i64` 32-46,
`u8` 289-291, `u16` 234-243, `u32` 219-221, `u64` 71-85, `f32` 319-327, `f64` 340-349, `bool` 380-386,
`NullValue` 403-405, `UndefinedValue` 418-420, `str` 521-527, `[u8]` 494-500. -/
def writeTo (dbg : Bool) (x : Scalar) (buf : Nat) (wide : Bool) : Exec (Option (List UInt8)) :=
  match x with
  | i8 n => writeSigned depth true n.toInt buf wide
  | i16 n => writeSigned depth true n.toInt buf wide
  | i32 n => writeSigned depth false n.toInt buf wide
  | i64 n => writeSigned depth false n.toInt buf wide
  | u8 n => writeU16 dbg n.toNat buf wide
  | u16 n => writeU16 dbg n.toNat buf wide
  | u32 n => writeU64 dbg n.toNat buf wide
  | u64 n => writeU64 dbg n.toNat buf wide
  | f32 b => .ok (if 6 > buf then none else some (0x20 :: 0 :: leBytes 4 b.toNat))
  | f64 b => .ok (if 10 > buf then none else some ((0x20 ||| 0x08) :: 0 :: leBytes 8 b.toNat))
  | bool b => .ok (writeConstant (if b then 0x38 else 0x34) buf wide)
  | null => .ok (writeConstant 0x30 buf wide)
  | undefined => .ok (writeConstant 0x3C buf wide)
  | str s => writeData 0x40 s.bytes buf wide
  | data d => writeData 0x50 d buf wide

/-- `Encodable::fleece_size`: `i8` encodable.rs:308-310, `i16` 272-274, `i32` 208-210, `i64` 48-57 (its condition is
always true), `u8` 293-295, `u16` 245-247, `u32` 223-225, `u64` 87-94, `f32` 329-331, `f64` 351-353, constants
388-390, 407-409, 422-424, strings and data 502-508, 529-531. -/
def size : Scalar → Nat
  | i8 _ | i16 _ | i32 _ | i64 _ => 2
  | u8 _ | u16 _ => 2
  | u32 n => u64Size n.toNat
  | u64 n => u64Size n.toNat
  | f32 _ => 6
  | f64 _ => 10
  | bool _ | null | undefined => 2
  | str s => dataSize s.bytes.length
  | data d => dataSize d.length

/-- `Encodable::to_sized_value`: `i8` encodable.rs:312-314, `i16` 276-284, `i32` 212-214, `i64` 59-65, `u8` 297-299,
`u16` 249-256, `u32` 227-229, `u64` 97-103, floats 333-335, 355-357, `bool` 392-398, null 411-413, undefined 426-428,
data 510-516, `str` 533-542. -/
def toSized : Scalar → Option SizedValue
  | i8 n => i16Sized n.toInt
  | i16 n => i16Sized n.toInt
  | i32 n => i64Sized n.toInt
  | i64 n => i64Sized n.toInt
  | u8 n => u16Sized n.toNat
  | u16 n => u16Sized n.toNat
  | u32 n => if n.toNat ≤ 2047 then u16Sized n.toNat else none
  | u64 n => if n.toNat ≤ 2047 then u16Sized n.toNat else none
  | f32 _ | f64 _ => none
  | bool b => some (SizedValue.newNarrow (if b then 0x38 else 0x34) 0)
  | null => some (SizedValue.newNarrow 0x30 0)
  | undefined => some (SizedValue.newNarrow 0x3C 0)
  | str s => dataSized 0x40 s.bytes
  | data d => dataSized 0x50 d

end Scalar

end Fleece
