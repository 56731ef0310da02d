import Verif.Model.Value

/-!
# What `Value::from_bytes` costs

The validator of Model/Value.lean, returning how many times `Value::_validate` was called. Nothing else is different
(`Proofs.Cost.validateCount_erase`).
-/

namespace Fleece

/-- The element loop of `Array::validate`, array.rs:196-200: the calls made for all elements. -/
def countElems (m : Mem) (rec : Val → Nat → R Nat) (width : Nat) : Nat → Nat → R Nat
  | 0, _ => .ok 0
  | n + 1, current => do
    let e ← fromRaw m current width
    let a ← rec e (current + width)
    let b ← countElems m rec width n (current + width)
    pure (a + b)

/-- `Array::validate`, array.rs:179-203. -/
def arrayCount (m : Mem) (rec : Bool → Val → Nat → R Nat) (v : Val) (dataEnd : Nat) : R Nat := do
  let isWide ← v.isWide m
  let width := if isWide then 4 else 2
  let elemCount ← v.arrayLen m
  let fp ← v.firstPos m
  let first := v.pos + fp
  let bytes ← usizeMul m.dbg elemCount width
  let e ← usizeAdd m.dbg (m.base + first) bytes
  if e > m.base + dataEnd then do
    let avail ← usizeSub m.dbg (m.base + dataEnd) (m.base + first)
    .err (.arrayOutOfBounds elemCount width avail)
  else
    countElems m (rec isWide) width elemCount first

/-- `Value::_validate::<IS_ARR_ELEM>`, value/mod.rs:373-403: this call and those it makes. -/
def validateCount (m : Mem) : Nat → Bool → Bool → Val → Nat → R Nat
  | 0, _, _, _, _ => .diverge
  | fuel + 1, isArrElem, isWide, v, dataEnd => do
    match ← v.type m with
    | .array | .dict => do
      let n ← arrayCount m (fun w => validateCount m fuel true w) v dataEnd
      pure (1 + n)
    | .pointer => do
      let target ← derefChecked m isWide v
      let n ← validateCount m fuel false isWide target v.pos
      pure (1 + n)
    | _ => do
      if isArrElem then pure 1
      else
        let r ← v.requiredSize m
        if m.base + v.pos + r ≤ m.base + dataEnd then pure 1
        else do
          let t ← v.type m
          let avail ← usizeSub m.dbg (m.base + dataEnd) (m.base + v.pos)
          .err (.valueOutOfBounds t r avail)

/-- `Value::from_bytes`, value/mod.rs:139-147: the calls of `_validate`. -/
def fromBytesCount (m : Mem) : R Nat := do
  let root ← findRoot m
  validateCount m (fuelFor m.data.length) false false root m.data.length

end Fleece
