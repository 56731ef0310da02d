import Verif.Model.Varint
import Verif.Model.Utf8

/-!
# `src/value/mod.rs`, `src/value/pointer.rs`, `src/value/array.rs`: reading and validating

A `&Value` is a fat pointer into a byte buffer, so the model keeps the buffer (`Mem`) and represents a value
by its position and length in it (`Val`). All addresses in the Rust code are positions relative to the start
of the buffer here; the load address `base` only enters where the Rust code does integer arithmetic on
addresses. `dbg` is the build profile: overflow checks and `debug_assert`s on (dev) or off (release).
-/

namespace Fleece

/-- The buffer handed to the reader. -/
structure Mem where
  data : List UInt8
  /-- address of `data[0]` -/
  base : Nat := 0
  /-- overflow checks and debug assertions -/
  dbg : Bool := true

/-- `Value`, value/mod.rs:23-26 (a `[u8]` slice): position in the buffer and length. -/
structure Val where
  pos : Nat
  len : Nat
deriving DecidableEq, Repr

/-- `ValueType`, value/mod.rs:28-48. -/
inductive ValueType where
  | null | undefined | false | true | short | int | unsignedInt | float | double32 | double64
  | string | data | array | dict | pointer
deriving DecidableEq, Repr

/-- `DecodeError`, value/error.rs:7-33. -/
inductive DecodeError where
  | inputIncorrectlySized
  | rootNotPointer
  | pointerTooSmall (actual expected : Nat)
  | pointerOffsetZero
  | isNotDict
  | isNotArray
  | pointerTargetOutOfBounds (dataStart target offset : Nat)
  | arrayOutOfBounds (count width available : Nat)
  | valueOutOfBounds (vt : ValueType) (required available : Nat)
deriving DecidableEq, Repr

/-- Outcome of the reader's functions. -/
abbrev R (α : Type) := Res DecodeError α

/-- `ValueType::from_byte`, value/mod.rs:79-111. -/
def ValueType.fromByte (b : UInt8) : ValueType :=
  let t := b &&& 0xF0
  if t = 0x30 then
    let s := b &&& 0x0F
    if s = 0x0C then .undefined
    else if s = 0x04 then .false
    else if s = 0x08 then .true
    else .null
  else if t = 0x00 then .short
  else if t = 0x10 then if b &&& 0x08 = 0x00 then .int else .unsignedInt
  else if t = 0x20 then
    let s := b &&& 0x0C
    if s = 0x00 then .float
    else if s = 0x04 then .double32
    else .double64
  else if t = 0x40 then .string
  else if t = 0x50 then .data
  else if t = 0x60 then .array
  else if t = 0x70 then .dict
  else .pointer

/-! ## Memory access -/

/-- `core::slice::from_raw_parts(ptr, len)` (value/mod.rs:465, 487): undefined behaviour unless the whole slice
lies in the buffer. -/
def mkSlice (m : Mem) (pos len : Nat) : R Val :=
  if pos + len ≤ m.data.length then .ok ⟨pos, len⟩ else .ub

/-- `core::ptr::copy_nonoverlapping(ptr, buf, n)` out of the buffer (value/mod.rs:271, pointer.rs:87, 91). -/
def rawRead (m : Mem) (pos n : Nat) : R (List UInt8) :=
  if pos + n ≤ m.data.length then .ok ((m.data.drop pos).take n) else .ub

/-- `self.bytes[i]`: panics outside the slice. -/
def Val.byte (m : Mem) (v : Val) (i : Nat) : R UInt8 :=
  if i < v.len then
    match m.data[v.pos + i]? with
    | some b => .ok b
    | none => .ub
  else .panic

/-- `&self.bytes[a..b]`: panics unless `a ≤ b ≤ len`. -/
def Val.slice (m : Mem) (v : Val) (a b : Nat) : R (List UInt8) :=
  if a ≤ b ∧ b ≤ v.len then rawRead m (v.pos + a) (b - a) else .panic

/-! ## Underlying data getters (value/mod.rs:501-528) -/

/-- `Value::value_type`, value/mod.rs:198-200. -/
def Val.type (m : Mem) (v : Val) : R ValueType := do
  let b ← v.byte m 0
  pure (ValueType.fromByte b)

/-- `Value::_get_short`, value/mod.rs:503-508. -/
def Val.getShort (m : Mem) (v : Val) : R Nat := do
  let bs ← v.slice m 0 2
  match bs with
  | [b0, b1] => pure ((b0 &&& 0x0F).toNat * 256 + b1.toNat)
  | _ => .panic

/-- `Value::_get_data`, value/mod.rs:510-528. -/
def Val.getData (m : Mem) (v : Val) : R (List UInt8) := do
  if v.len < 2 then return []
  let b0 ← v.byte m 0
  let inlineSize := (b0 &&& 0x0F).toNat
  if inlineSize = 0x0F then
    let rest ← v.slice m 1 v.len
    let (bytesRead, size) ← Varint.read m.dbg rest
    if bytesRead = 0 then return []
    let e ← usizeAdd m.dbg (1 + bytesRead) size
    v.slice m (1 + bytesRead) e
  else
    v.slice m 1 (1 + inlineSize)

/-- `Value::required_size`, value/mod.rs:409-432. -/
def Val.requiredSize (m : Mem) (v : Val) : R Nat := do
  match ← v.type m with
  | .null | .undefined | .false | .true | .short => pure 2
  | .unsignedInt | .int => do
    let b ← v.byte m 0
    pure (2 + (b &&& 0x07).toNat)
  | .float | .double32 => pure 6
  | .double64 => pure 10
  | .string | .data => do
    let d ← v.getData m
    let len := d.length
    if len ≤ 1 then pure 2
    else if len ≤ 0x0E then pure (1 + len)
    else pure (1 + Varint.sizeRequired len + len)
  | .array | .dict => pure 2
  | .pointer => pure 2

/-! ## Conversions (value/mod.rs:204-329) -/

/-- IEEE-754 conversions done by the processor, on bit patterns; a parameter of the model.
`widen`: `f64::from(f32)`. `narrow`: `f64 as f32`. `toI64`, `toI16`, `toU16`: `f64 as i64` etc.
`ofI64`: `i64 as f64`. -/
structure FloatOps where
  widen : UInt32 → UInt64
  narrow : UInt64 → UInt32
  toI64 : UInt64 → Int
  toI16 : UInt64 → Int
  toU16 : UInt64 → Nat
  ofI64 : Int → UInt64

/-- Little-endian bytes to a number (`from_le_bytes`). -/
def leNat : List UInt8 → Nat
  | [] => 0
  | b :: bs => b.toNat + 256 * leNat bs

/-- Big-endian bytes to a number (`from_be_bytes`). -/
def beNat (bs : List UInt8) : Nat := bs.foldl (fun acc b => acc * 256 + b.toNat) 0

/-- `Value::to_double`, value/mod.rs:292-306, for the float types (bits of the `f64`). -/
def Val.floatBits (m : Mem) (F : FloatOps) (v : Val) (double : Bool) : R UInt64 := do
  if double then
    let bs ← v.slice m 2 10
    pure (UInt64.ofNat (leNat bs))
  else
    let bs ← v.slice m 2 6
    pure (F.widen (UInt32.ofNat (leNat bs)))

/-- The `Short` arm of `Value::to_short`, value/mod.rs:228-235. -/
def Val.shortInt (m : Mem) (v : Val) : R Int := do
  let i ← v.getShort m
  if i &&& 0x0800 ≠ 0 then pure (Int.bmod ((i ||| 0xF000 : Nat) : Int) (2 ^ 16)) else pure (i : Int)

/-- `Value::to_int`, value/mod.rs:262-282. `i64` is `Int`. -/
def Val.toInt (m : Mem) (F : FloatOps) (v : Val) : R Int := do
  match ← v.type m with
  | .true => pure 1
  | .false => pure 0
  | .short => v.shortInt m
  | .int | .unsignedInt => do
    let b ← v.byte m 0
    let count := (b &&& 0x07).toNat + 1
    -- `self.bytes[1..]` panics on an empty slice, which `value_type` has excluded
    let bs ← rawRead m (v.pos + 1) count
    pure (Int.bmod (leNat bs) (2 ^ 64))
  | .float | .double32 => do
    let d ← v.floatBits m F Bool.false
    pure (F.toI64 d)
  | .double64 => do
    let d ← v.floatBits m F Bool.true
    pure (F.toI64 d)
  | _ => pure 0

/-- `Value::to_unsigned_int`, value/mod.rs:286-288. `u64` is `Nat`. -/
def Val.toUnsignedInt (m : Mem) (F : FloatOps) (v : Val) : R Nat := do
  let i ← v.toInt m F
  pure (i % (2 ^ 64 : Int)).toNat

/-- `Value::to_double`, value/mod.rs:292-306. -/
def Val.toDouble (m : Mem) (F : FloatOps) (v : Val) : R UInt64 := do
  match ← v.type m with
  | .float | .double32 => v.floatBits m F Bool.false
  | .double64 => v.floatBits m F Bool.true
  | _ => do
    let i ← v.toInt m F
    pure (F.ofI64 i)

/-- `Value::to_float`, value/mod.rs:310-312. -/
def Val.toFloat (m : Mem) (F : FloatOps) (v : Val) : R UInt32 := do
  let d ← v.toDouble m F
  pure (F.narrow d)

/-- `Value::to_short`, value/mod.rs:223-240. -/
def Val.toShort (m : Mem) (F : FloatOps) (v : Val) : R Int := do
  match ← v.type m with
  | .true => pure 1
  | .false => pure 0
  | .short => v.shortInt m
  | .int | .unsignedInt => do
    let i ← v.toInt m F
    pure (Int.bmod i (2 ^ 16))
  | .float | .double32 | .double64 => do
    let d ← v.toDouble m F
    pure (F.toI16 d)
  | _ => pure 0

/-- `Value::to_unsigned_short`, value/mod.rs:247-256. -/
def Val.toUnsignedShort (m : Mem) (F : FloatOps) (v : Val) : R Nat := do
  match ← v.type m with
  | .true => pure 1
  | .false => pure 0
  | .short => v.getShort m
  | .int | .unsignedInt => do
    let i ← v.toUnsignedInt m F
    pure (i % 2 ^ 16)
  | .float | .double32 | .double64 => do
    let d ← v.toDouble m F
    pure (F.toU16 d)
  | _ => pure 0

/-- `Value::to_bool`, value/mod.rs:207-217. -/
def Val.toBool (m : Mem) (F : FloatOps) (v : Val) : R Bool := do
  match ← v.type m with
  | .false => pure Bool.false
  | .short | .int | .float | .double32 | .double64 => do
    let i ← v.toInt m F
    pure (decide (i ≠ 0))
  | _ => pure Bool.true

/-- `Value::to_data`, value/mod.rs:315-320. -/
def Val.toData (m : Mem) (v : Val) : R (List UInt8) := do
  match ← v.type m with
  | .string | .data => v.getData m
  | _ => pure []

/-- `Value::to_str`, value/mod.rs:323-328; `from_utf8(..).unwrap_or("")`. -/
def Val.toStr (m : Mem) (v : Val) : R (List UInt8) := do
  match ← v.type m with
  | .string => do
    let d ← v.getData m
    pure (if validUtf8 d then d else [])
  | _ => pure []

/-! ## Pointers (pointer.rs) -/

/-- `Pointer::get_offset`, pointer.rs:84-94: unchecked read of 4 or 2 bytes. -/
def Val.getOffset (m : Mem) (v : Val) (wide : Bool) : R Nat := do
  if wide then
    let bs ← rawRead m v.pos 4
    pure (beNat bs % 2 ^ 30 * 2)
  else
    let bs ← rawRead m v.pos 2
    pure (beNat bs % 2 ^ 14 * 2)

/-- `Pointer::deref_checked`, pointer.rs:22-58. `data_start` is always the start of the buffer, position 0,
so `target_ptr < data_start` is `pos < offset`. The recursion follows pointers to pointers, which strictly
decreases the position; fuel `pos + 1` suffices (`Proofs.Reader.derefChecked_ne_diverge`). -/
def derefCheckedGo (m : Mem) : Nat → Bool → Val → R Val
  | 0, _, _ => .diverge
  | fuel + 1, wide, v => do
    if (wide && decide (v.len < 4)) || decide (v.len < 2) then
      .err (.pointerTooSmall v.len (if wide then 4 else 2))
    else
      let offset ← v.getOffset m wide
      if offset = 0 then .err .pointerOffsetZero
      else
        let b0 ← v.byte m 0
        if b0 &&& 0x40 ≠ 0 then .panic   -- `unimplemented!()`
        else if v.pos < offset then
          .err (.pointerTargetOutOfBounds m.base ((m.base + v.pos + 2 ^ 64 - offset) % 2 ^ 64) offset)
        else
          let target ← mkSlice m (v.pos - offset) offset
          let t ← target.type m
          if t = .pointer then derefCheckedGo m fuel true target else pure target

/-- `Pointer::deref_checked` with the fuel that suffices. -/
def derefChecked (m : Mem) (wide : Bool) (v : Val) : R Val := derefCheckedGo m (v.pos + 1) wide v

/-- `Pointer::deref_unchecked`, pointer.rs:63-76. A target before the buffer is out-of-bounds access. -/
def derefUncheckedGo (m : Mem) : Nat → Bool → Val → R Val
  | 0, _, _ => .diverge
  | fuel + 1, wide, v => do
    let offset ← v.getOffset m wide
    if m.dbg && decide (offset = 0) then .panic
    else if v.pos < offset then .ub
    else
      let target ← mkSlice m (v.pos - offset) offset
      let t ← target.type m
      if t = .pointer then derefUncheckedGo m fuel true target else pure target

/-- `Pointer::deref_unchecked` with the fuel that suffices. -/
def derefUnchecked (m : Mem) (wide : Bool) (v : Val) : R Val := derefUncheckedGo m (v.pos + 1) wide v

/-! ## Arrays (array.rs). A `Dict` is an `Array` whose element count is doubled. -/

/-- `Array::is_wide`, array.rs:110-112. -/
def Val.isWide (m : Mem) (v : Val) : R Bool := do
  let b ← v.byte m 0
  pure (decide (b &&& 0x08 ≠ 0))

/-- `Array::width`, array.rs:115-121. -/
def Val.width (m : Mem) (v : Val) : R Nat := do
  let w ← v.isWide m
  pure (if w then 4 else 2)

/-- `Array::first_pos`, array.rs:89-107. -/
def Val.firstPos (m : Mem) (v : Val) : R Nat := do
  if v.len < 2 then return 0
  let s ← v.getShort m
  let size := s &&& 0x07FF
  if size = 0x07FF then
    let rest ← v.slice m 2 v.len
    let (read, _) ← Varint.read m.dbg rest
    if read % 2 ≠ 0 then pure (2 + read + 1) else pure (2 + read)
  else pure 2

/-- `Array::len`, array.rs:125-142. -/
def Val.arrayLen (m : Mem) (v : Val) : R Nat := do
  let s ← v.getShort m
  let size := s &&& 0x07FF
  if size = 0x07FF then
    let rest ← v.slice m 2 v.len
    let (read, size) ← Varint.read m.dbg rest
    if read = 0 then pure 0
    else
      let t ← v.type m
      if t = .dict then usizeMul m.dbg size 2 else pure size
  else
    let t ← v.type m
    if t = .dict then usizeMul m.dbg size 2 else pure size

/-- `Array::get_unchecked`, array.rs:73-87. -/
def Val.getUnchecked (m : Mem) (v : Val) (index : Nat) : R Val := do
  let width ← v.width m
  let offset ← usizeMul m.dbg index width
  let first ← v.firstPos m
  let o ← usizeAdd m.dbg first offset
  let target ← mkSlice m (v.pos + o) width
  let t ← target.type m
  if t = .pointer then do
    let w ← v.isWide m
    derefUnchecked m w target
  else pure target

/-- `Array::get`, array.rs:64-70. -/
def Val.get (m : Mem) (v : Val) (index : Nat) : R (Option Val) := do
  let n ← v.arrayLen m
  if index > n then pure none
  else
    let r ← v.getUnchecked m index
    pure (some r)

/-- `array::Iter`, array.rs:215-220. -/
structure Iter where
  next : Option Val
  width : Nat
  index : Nat
  len : Nat
deriving DecidableEq, Repr

/-- `Array::_iter_first`, array.rs:161-171. -/
def Val.iterFirst (m : Mem) (v : Val) : R (Option Val) := do
  let n ← v.arrayLen m
  if n = 0 then pure none
  else
    let first ← v.firstPos m
    let width ← v.width m
    let t ← mkSlice m (v.pos + first) width
    pure (some t)

/-- `Array::iter`, array.rs:150-157. -/
def Val.iter (m : Mem) (v : Val) : R Iter := do
  let next ← v.iterFirst m
  let width ← v.width m
  let len ← v.arrayLen m
  pure { next, width, index := 0, len }

/-- `Iter::next`, array.rs:231-253. -/
def Iter.step (m : Mem) (it : Iter) : R (Option Val × Iter) := do
  match it.next with
  | none => pure (none, it)
  | some current =>
    if it.len ≤ it.index then pure (none, it)
    else
      let t ← current.type m
      let resolved ← if t = .pointer then derefUnchecked m (it.width == 4) current else pure current
      let index := it.index + 1
      if index < it.len then
        let n ← mkSlice m (current.pos + it.width) it.width
        pure (some resolved, { it with next := some n, index })
      else
        pure (some resolved, { it with next := none, index })

/-- `Iter::size_hint`, array.rs:255-257 (both components are this number). -/
def Iter.sizeHint (dbg : Bool) (it : Iter) : R Nat := usizeSub dbg it.len it.index

/-! ## Validation -/

/-- `Value::_from_raw`, value/mod.rs:463-477. -/
def fromRaw (m : Mem) (pos available : Nat) : R Val := do
  let target ← mkSlice m pos available
  if target.len < 2 then do
    let t ← target.type m
    let r ← target.requiredSize m
    .err (.valueOutOfBounds t r available)
  else
    let r ← target.requiredSize m
    if r > available then do
      let t ← target.type m
      .err (.valueOutOfBounds t r available)
    else pure target

/-- The element loop of `Array::validate`, array.rs:196-200. `rec` is `Value::_validate::<true>`. -/
def validateElems (m : Mem) (rec : Val → Nat → R Unit) (width : Nat) : Nat → Nat → R Unit
  | 0, _ => .ok ()
  | n + 1, current => do
    let e ← fromRaw m current width
    rec e (current + width)
    validateElems m rec width n (current + width)

/-- `Array::validate`, array.rs:179-203. `dataEnd` is a position. `rec wide elem next` is
`Value::_validate::<true>(elem, wide, next)`. -/
def arrayValidate (m : Mem) (rec : Bool → Val → Nat → R Unit) (v : Val) (dataEnd : Nat) : R Unit := do
  let isWide ← v.isWide m
  let width := if isWide then 4 else 2
  let elemCount ← v.arrayLen m
  let fp ← v.firstPos m
  let first := v.pos + fp
  let bytes ← usizeMul m.dbg elemCount width
  let e ← usizeAdd m.dbg (m.base + first) bytes
  if e > m.base + dataEnd then do
    let avail ← usizeSub m.dbg (m.base + dataEnd) (m.base + first)
    .err (.arrayOutOfBounds elemCount width avail)
  else
    validateElems m (rec isWide) width elemCount first

/-- `Value::_validate::<IS_ARR_ELEM>`, value/mod.rs:373-403. The two mutually recursive functions
(`_validate` and `Array::validate`) recurse on `fuel`; running out is `diverge`. -/
def validateGo (m : Mem) : Nat → Bool → Bool → Val → Nat → R Unit
  | 0, _, _, _, _ => .diverge
  | fuel + 1, isArrElem, isWide, v, dataEnd => do
    match ← v.type m with
    | .array | .dict => arrayValidate m (fun w => validateGo m fuel true w) v dataEnd
    | .pointer => do
      let target ← derefChecked m isWide v
      validateGo m fuel false isWide target v.pos
    | _ => do
      if isArrElem then pure ()
      else
        let r ← v.requiredSize m
        if m.base + v.pos + r ≤ m.base + dataEnd then pure ()
        else do
          let t ← v.type m
          let avail ← usizeSub m.dbg (m.base + dataEnd) (m.base + v.pos)
          .err (.valueOutOfBounds t r avail)

/-- `Value::_find_root`, value/mod.rs:356-371. -/
def findRoot (m : Mem) : R Val := do
  let n := m.data.length
  if n = 0 ∨ n % 2 ≠ 0 then .err .inputIncorrectlySized
  else
    let root : Val := ⟨n - 2, 2⟩
    let t ← root.type m
    if t = .pointer then derefChecked m false root
    else if n = 2 then pure root
    else .err .rootNotPointer

/-- `Value::from_bytes`, value/mod.rs:139-147, with explicit recursion fuel. -/
def fromBytesGo (m : Mem) (fuel : Nat) : R Val := do
  let root ← findRoot m
  validateGo m fuel false false root m.data.length
  pure root

/-- Recursion depth that suffices for `n` bytes in the checked profile (`Props.C06`). -/
def fuelFor (n : Nat) : Nat := (n + 1) * (n + 1) + 1

/-- `Value::from_bytes`, value/mod.rs:139-147. -/
def fromBytes (m : Mem) : R Val := fromBytesGo m (fuelFor m.data.length)

/-- `Value::from_bytes_unchecked`, value/mod.rs:158-168. `data.len() - 2` underflows for shorter data: a panic
in both profiles (overflow check, or slice index out of range). -/
def fromBytesUnchecked (m : Mem) : R Val := do
  let n := m.data.length
  if n < 2 then .panic
  else
    let root : Val := ⟨n - 2, 2⟩
    let t ← root.type m
    if t = .pointer then derefUnchecked m false root
    else if n = 2 then pure root
    else .panic

/-- `Value::as_array`, value/mod.rs:334-340; the `Array` is the same slice. -/
def Val.asArray (m : Mem) (v : Val) : R (Option Val) := do
  let t ← v.type m
  pure (if t = .array then some v else none)

/-- `Value::as_dict`, value/mod.rs:343-349. -/
def Val.asDict (m : Mem) (v : Val) : R (Option Val) := do
  let t ← v.type m
  pure (if t = .dict then some v else none)

/-- `Array::from_bytes`, array.rs:24-31. -/
def arrayFromBytes (m : Mem) : R Val := do
  let v ← fromBytes m
  let t ← v.type m
  if t = .array then pure v else .err .isNotArray

/-- `Dict::from_bytes`, dict.rs:32-39. -/
def dictFromBytes (m : Mem) : R Val := do
  let v ← fromBytes m
  let t ← v.type m
  if t = .dict then pure v else .err .isNotDict

end Fleece
