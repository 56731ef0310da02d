import Verif.Model.Value

/-!
# Reading under the rule that a reference is good for its own bytes only

A pointer got from a reference to a slice (`as_ptr`) may be used for the bytes of that slice and no others, even if more bytes of
the same buffer follow or go before. This is the rule of Stacked Borrows, the aliasing model that Miri checks. (Rust has not
decided on its aliasing rules; the documentation of `core::ptr` says that borrowing and slicing can shrink what a pointer may be
used for, and that this cannot be undone.) The model in Model/Value.lean faults only outside the buffer. Here are the functions
of the reader that form a slice or copy bytes by raw pointer, with the rule; the others index into a slice, which checks.
A `Val` is a reference: it covers `len` bytes from `pos`.
-/

namespace Fleece

/-- `core::slice::from_raw_parts` at a pointer that was got from `src`, value/mod.rs:463-497. -/
def reborrow (m : Mem) (src : Val) (pos len : Nat) : R Val :=
  if src.pos ≤ pos ∧ pos + len ≤ src.pos + src.len then mkSlice m pos len else .ub

/-- `core::ptr::copy_nonoverlapping` of `n` bytes at a pointer that was got from `src`, value/mod.rs:271, pointer.rs:87, 91. -/
def rawReadBorrow (m : Mem) (src : Val) (pos n : Nat) : R (List UInt8) :=
  if src.pos ≤ pos ∧ pos + n ≤ src.pos + src.len then rawRead m pos n else .ub

/-- `Value::to_int`, value/mod.rs:262-282. -/
def Val.toIntBorrow (m : Mem) (F : FloatOps) (v : Val) : R Int := do
  match ← v.type m with
  | .true => pure 1
  | .false => pure 0
  | .short => v.shortInt m
  | .int | .unsignedInt => do
    let b ← v.byte m 0
    let count := (b &&& 0x07).toNat + 1
    let bs ← rawReadBorrow m v (v.pos + 1) count
    pure (Int.bmod (leNat bs) (2 ^ 64))
  | .float | .double32 => do
    let d ← v.floatBits m F Bool.false
    pure (F.toI64 d)
  | .double64 => do
    let d ← v.floatBits m F Bool.true
    pure (F.toI64 d)
  | _ => pure 0

/-- `Pointer::get_offset`, pointer.rs:84-94. -/
def Val.getOffsetBorrow (m : Mem) (v : Val) (wide : Bool) : R Nat := do
  if wide then
    let bs ← rawReadBorrow m v v.pos 4
    pure (beNat bs % 2 ^ 30 * 2)
  else
    let bs ← rawReadBorrow m v v.pos 2
    pure (beNat bs % 2 ^ 14 * 2)

/-- `Pointer::deref_checked`, pointer.rs:22-58: the slice at 52 is formed at a pointer got from the pointer's own bytes (79-81). -/
def derefCheckedBorrowGo (m : Mem) : Nat → Bool → Val → R Val
  | 0, _, _ => .diverge
  | fuel + 1, wide, v => do
    if (wide && decide (v.len < 4)) || decide (v.len < 2) then
      .err (.pointerTooSmall v.len (if wide then 4 else 2))
    else
      let offset ← v.getOffsetBorrow m wide
      if offset = 0 then .err .pointerOffsetZero
      else
        let b0 ← v.byte m 0
        if b0 &&& 0x40 ≠ 0 then .panic
        else if v.pos < offset then
          .err (.pointerTargetOutOfBounds m.base ((m.base + v.pos + 2 ^ 64 - offset) % 2 ^ 64) offset)
        else
          let target ← reborrow m v (v.pos - offset) offset
          let t ← target.type m
          if t = .pointer then derefCheckedBorrowGo m fuel true target else pure target

/-- `Pointer::deref_checked` with the fuel that suffices. -/
def derefCheckedBorrow (m : Mem) (wide : Bool) (v : Val) : R Val := derefCheckedBorrowGo m (v.pos + 1) wide v

/-- `Pointer::deref_unchecked`, pointer.rs:63-76. -/
def derefUncheckedBorrowGo (m : Mem) : Nat → Bool → Val → R Val
  | 0, _, _ => .diverge
  | fuel + 1, wide, v => do
    let offset ← v.getOffsetBorrow m wide
    if m.dbg && decide (offset = 0) then .panic
    else if v.pos < offset then .ub
    else
      let target ← reborrow m v (v.pos - offset) offset
      let t ← target.type m
      if t = .pointer then derefUncheckedBorrowGo m fuel true target else pure target

/-- `Pointer::deref_unchecked` with the fuel that suffices. -/
def derefUncheckedBorrow (m : Mem) (wide : Bool) (v : Val) : R Val := derefUncheckedBorrowGo m (v.pos + 1) wide v

/-- `Array::get_unchecked`, array.rs:73-87: the slot is formed at a pointer got from the array (`_offset_unchecked`,
value/mod.rs:494-497). -/
def Val.getUncheckedBorrow (m : Mem) (v : Val) (index : Nat) : R Val := do
  let width ← v.width m
  let offset ← usizeMul m.dbg index width
  let first ← v.firstPos m
  let o ← usizeAdd m.dbg first offset
  let target ← reborrow m v (v.pos + o) width
  let t ← target.type m
  if t = .pointer then do
    let w ← v.isWide m
    derefUncheckedBorrow m w target
  else pure target

/-- `Array::_iter_first`, array.rs:161-171. -/
def Val.iterFirstBorrow (m : Mem) (v : Val) : R (Option Val) := do
  let n ← v.arrayLen m
  if n = 0 then pure none
  else
    let first ← v.firstPos m
    let width ← v.width m
    let t ← reborrow m v (v.pos + first) width
    pure (some t)

/-- `Array::iter`, array.rs:150-157. -/
def Val.iterBorrow (m : Mem) (v : Val) : R Iter := do
  let next ← v.iterFirstBorrow m
  let width ← v.width m
  let len ← v.arrayLen m
  pure { next, width, index := 0, len }

/-- `Iter::next`, array.rs:231-253: the next slot is formed at a pointer got from the slot before it (247). -/
def Iter.stepBorrow (m : Mem) (it : Iter) : R (Option Val × Iter) := do
  match it.next with
  | none => pure (none, it)
  | some current =>
    if it.len ≤ it.index then pure (none, it)
    else
      let t ← current.type m
      let resolved ← if t = .pointer then derefUncheckedBorrow m (it.width == 4) current else pure current
      let index := it.index + 1
      if index < it.len then
        let n ← reborrow m current (current.pos + it.width) it.width
        pure (some resolved, { it with next := some n, index })
      else
        pure (some resolved, { it with next := none, index })

/-- `Value::_from_raw`, value/mod.rs:463-477, at a pointer got from `src`. -/
def fromRawBorrow (m : Mem) (src : Val) (pos available : Nat) : R Val :=
  if src.pos ≤ pos ∧ pos + available ≤ src.pos + src.len then fromRaw m pos available else .ub

/-- The element loop of `Array::validate`, array.rs:196-200: all slots at pointers got from the array (184). -/
def validateElemsBorrow (m : Mem) (rec : Val → Nat → R Unit) (src : Val) (width : Nat) : Nat → Nat → R Unit
  | 0, _ => .ok ()
  | n + 1, current => do
    let e ← fromRawBorrow m src current width
    rec e (current + width)
    validateElemsBorrow m rec src width n (current + width)

/-- `Array::validate`, array.rs:179-203. -/
def arrayValidateBorrow (m : Mem) (rec : Bool → Val → Nat → R Unit) (v : Val) (dataEnd : Nat) : R Unit := do
  let isWide ← v.isWide m
  let width := if isWide then 4 else 2
  let elemCount ← v.arrayLen m
  let fp ← v.firstPos m
  let first := v.pos + fp
  let bytes ← usizeMul m.dbg elemCount width
  let e ← usizeAdd m.dbg (m.base + first) bytes
  if e > m.base + dataEnd then do
    let avail ← usizeSub m.dbg (m.base + dataEnd) (m.base + first)
    .err (.arrayOutOfBounds elemCount width avail)
  else
    validateElemsBorrow m (rec isWide) v width elemCount first

/-- `Value::_validate::<IS_ARR_ELEM>`, value/mod.rs:373-403. -/
def validateBorrowGo (m : Mem) : Nat → Bool → Bool → Val → Nat → R Unit
  | 0, _, _, _, _ => .diverge
  | fuel + 1, isArrElem, isWide, v, dataEnd => do
    match ← v.type m with
    | .array | .dict => arrayValidateBorrow m (fun w => validateBorrowGo m fuel true w) v dataEnd
    | .pointer => do
      let target ← derefCheckedBorrow m isWide v
      validateBorrowGo m fuel false isWide target v.pos
    | _ => do
      if isArrElem then pure ()
      else
        let r ← v.requiredSize m
        if m.base + v.pos + r ≤ m.base + dataEnd then pure ()
        else do
          let t ← v.type m
          let avail ← usizeSub m.dbg (m.base + dataEnd) (m.base + v.pos)
          .err (.valueOutOfBounds t r avail)

/-- `Value::_find_root`, value/mod.rs:356-371: `root` covers the last two bytes. -/
def findRootBorrow (m : Mem) : R Val := do
  let n := m.data.length
  if n = 0 ∨ n % 2 ≠ 0 then .err .inputIncorrectlySized
  else
    let root : Val := ⟨n - 2, 2⟩
    let t ← root.type m
    if t = .pointer then derefCheckedBorrow m false root
    else if n = 2 then pure root
    else .err .rootNotPointer

/-- `Value::from_bytes`, value/mod.rs:139-147. -/
def fromBytesBorrow (m : Mem) : R Val := do
  let root ← findRootBorrow m
  validateBorrowGo m (fuelFor m.data.length) false false root m.data.length
  pure root

/-- `Value::from_bytes_unchecked`, value/mod.rs:158-168. -/
def fromBytesUncheckedBorrow (m : Mem) : R Val := do
  let n := m.data.length
  if n < 2 then .panic
  else
    let root : Val := ⟨n - 2, 2⟩
    let t ← root.type m
    if t = .pointer then derefUncheckedBorrow m false root
    else if n = 2 then pure root
    else .panic

end Fleece
