import Verif.Model.Basic

/-! # `src/value/varint.rs` -/

namespace Fleece.Varint

/-- `MAX_LEN`, varint.rs:1. -/
def maxLen : Nat := 10

/-- The `for` loop of `read`, varint.rs:17-31. `bytes` is the rest of `data[1..end]`, `i` the enumeration
index. A `u64` is a `Nat` below `2^64`; `<<` by 64 or more panics with overflow checks and uses the shift
amount modulo 64 without them. -/
def readLoop {ε : Type} (dbg : Bool) : List UInt8 → (i shift res : Nat) → Res ε (Nat × Nat)
  | [], _, _, _ => .ok (0, 0)
  | b :: bs, i, shift, res =>
    if dbg && decide (64 ≤ shift) then .panic
    else
      let res' := res ||| (((b &&& 0x7F).toNat <<< (shift % 64)) % 2 ^ 64)
      if 0x80 ≤ b then readLoop dbg bs (i + 1) (shift + 7) res'
      else if i == maxLen && decide (1 < b) then .ok (0, 0)
      else .ok (i + 2, res')

/-- `read`, varint.rs:5-32: (number of bytes read, value); (0, 0) if there is no complete varint. -/
def read {ε : Type} (dbg : Bool) : List UInt8 → Res ε (Nat × Nat)
  | [] => .ok (0, 0)
  | b :: bs =>
    if b < 0x80 then .ok (1, b.toNat)
    else readLoop dbg (bs.take (min (bs.length + 1) (maxLen + 1) - 1)) 0 7 (b &&& 0x7F).toNat

/-- The loop of `write`, varint.rs:38-44. The fuel is the size of the output array (all callers pass
`[0_u8; MAX_LEN]`); running past it is an index panic in Rust and cannot happen for a `u64`
(`Proofs.Varint.writeGo_fuel`). -/
def writeGo : Nat → Nat → List UInt8
  | 0, _ => []
  | fuel + 1, v =>
    if 0x80 ≤ v then (UInt8.ofNat (v % 256) ||| 0x80) :: writeGo fuel (v >>> 7)
    else [UInt8.ofNat v]

/-- `write`, varint.rs:35-45, the bytes written. -/
def write (v : Nat) : List UInt8 := writeGo maxLen v

/-- `size_required`, varint.rs:48-54; `63 - leading_zeros` is the position of the highest set bit. -/
def sizeRequired (v : Nat) : Nat :=
  if v == 0 then 1 else Nat.log2 v / 7 + 1

end Fleece.Varint
