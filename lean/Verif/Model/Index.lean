import Verif.Model.Mutable
import Verif.Model.Dict

/-! # Indexing with `[]`, and `contains_key_with_shared_keys`

`<Dict as Index<&str>>::index` is `Registry.dictIndex` (Model.Scoped). -/

namespace Fleece
open Res

/-- `<Array as Index<usize>>::index`, value/array.rs:206-212: `get`, then `expect`. -/
def Val.index (m : Mem) (v : Val) (i : Nat) : R Val := do
  match ← v.get m i with
  | some x => pure x
  | none => .panic

/-- `<MutableArray as Index<usize>>::index`, mutable/array.rs:136-142, and `<MutableDict as Index<&str>>::index`,
mutable/dict.rs:167-173: `get`, then `unwrap`. The result is the bytes of the value. -/
def Slot.index (s : Slot) (x : Sel) : Exec (List UInt8) :=
  match s.get x with
  | some b => .ok b
  | none => .panic

/-- `Dict::contains_key_with_shared_keys`, value/dict.rs:81-86. -/
def Val.containsKeyWith (m : Mem) (sk : SharedKeys) (v : Val) (key : List UInt8) : R Bool := do
  let r ← v.dictGetWith m sk key
  pure r.isSome

end Fleece
