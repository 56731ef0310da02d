import Verif.Model.Value

/-!
# `Value::from_bytes` with Rust's rule for pointer arithmetic

`<*const u8>::add` and `offset` are undefined behaviour when the address they give is outside the allocation (one past its
end is allowed), whether or not it is read. Model/Value.lean works with positions and only faults when memory is read or a
slice is formed. Here the three places of `from_bytes` that do arithmetic before any check are written out with that rule.
The allocation is the buffer itself, as for a `Vec<u8>` or a file that was read. Everything else forms a slice at the
address at once (value/mod.rs:463-499, array.rs:73-87, 161-171, 245), where the two rules agree.
-/

namespace Fleece

/-- `ptr.add(n)` or `ptr.offset(-n)`: the position `to` must be in the allocation or at its end. -/
def ptrTo (m : Mem) (to : Int) : R Unit :=
  if 0 ≤ to ∧ to ≤ m.data.length then .ok () else .ub

/-- `Pointer::deref_checked`, pointer.rs:22-58; `self.offset` at 37, before the checks at 40 and 44. -/
def derefCheckedStrictGo (m : Mem) : Nat → Bool → Val → R Val
  | 0, _, _ => .diverge
  | fuel + 1, wide, v => do
    if (wide && decide (v.len < 4)) || decide (v.len < 2) then
      .err (.pointerTooSmall v.len (if wide then 4 else 2))
    else
      let offset ← v.getOffset m wide
      if offset = 0 then .err .pointerOffsetZero
      else
        ptrTo m ((v.pos : Int) - offset)
        let b0 ← v.byte m 0
        if b0 &&& 0x40 ≠ 0 then .panic   -- `unimplemented!()`
        else if v.pos < offset then
          .err (.pointerTargetOutOfBounds m.base ((m.base + v.pos + 2 ^ 64 - offset) % 2 ^ 64) offset)
        else
          let target ← mkSlice m (v.pos - offset) offset
          let t ← target.type m
          if t = .pointer then derefCheckedStrictGo m fuel true target else pure target

/-- `Pointer::deref_checked`, pointer.rs:22-58, with the fuel that suffices. -/
def derefCheckedStrict (m : Mem) (wide : Bool) (v : Val) : R Val := derefCheckedStrictGo m (v.pos + 1) wide v

/-- The element loop of `Array::validate`, array.rs:196-200; `current.add(width)` at 197. -/
def validateElemsStrict (m : Mem) (rec : Val → Nat → R Unit) (width : Nat) : Nat → Nat → R Unit
  | 0, _ => .ok ()
  | n + 1, current => do
    ptrTo m ((current : Int) + width)
    let e ← fromRaw m current width
    rec e (current + width)
    validateElemsStrict m rec width n (current + width)

/-- `Array::validate`, array.rs:179-203; `as_ptr().add(self.first_pos())` at 184. -/
def arrayValidateStrict (m : Mem) (rec : Bool → Val → Nat → R Unit) (v : Val) (dataEnd : Nat) : R Unit := do
  let isWide ← v.isWide m
  let width := if isWide then 4 else 2
  let elemCount ← v.arrayLen m
  let fp ← v.firstPos m
  ptrTo m ((v.pos : Int) + fp)
  let first := v.pos + fp
  let bytes ← usizeMul m.dbg elemCount width
  let e ← usizeAdd m.dbg (m.base + first) bytes
  if e > m.base + dataEnd then do
    let avail ← usizeSub m.dbg (m.base + dataEnd) (m.base + first)
    .err (.arrayOutOfBounds elemCount width avail)
  else
    validateElemsStrict m (rec isWide) width elemCount first

/-- `Value::_validate::<IS_ARR_ELEM>`, value/mod.rs:373-403, on the two functions above. -/
def validateStrictGo (m : Mem) : Nat → Bool → Bool → Val → Nat → R Unit
  | 0, _, _, _, _ => .diverge
  | fuel + 1, isArrElem, isWide, v, dataEnd => do
    match ← v.type m with
    | .array | .dict => arrayValidateStrict m (fun w => validateStrictGo m fuel true w) v dataEnd
    | .pointer => do
      let target ← derefCheckedStrict m isWide v
      validateStrictGo m fuel false isWide target v.pos
    | _ => do
      if isArrElem then pure ()
      else
        let r ← v.requiredSize m
        if m.base + v.pos + r ≤ m.base + dataEnd then pure ()
        else do
          let t ← v.type m
          let avail ← usizeSub m.dbg (m.base + dataEnd) (m.base + v.pos)
          .err (.valueOutOfBounds t r avail)

/-- `Value::_find_root`, value/mod.rs:356-371. -/
def findRootStrict (m : Mem) : R Val := do
  let n := m.data.length
  if n = 0 ∨ n % 2 ≠ 0 then .err .inputIncorrectlySized
  else
    let root : Val := ⟨n - 2, 2⟩
    let t ← root.type m
    if t = .pointer then derefCheckedStrict m false root
    else if n = 2 then pure root
    else .err .rootNotPointer

/-- `Value::from_bytes`, value/mod.rs:139-147. -/
def fromBytesStrict (m : Mem) : R Val := do
  let root ← findRootStrict m
  validateStrictGo m (fuelFor m.data.length) false false root m.data.length
  pure root

end Fleece
