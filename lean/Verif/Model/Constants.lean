import Verif.Model.Value

/-! # `Value::is_mutable`, and the constants -/

namespace Fleece

/-- `Value::is_mutable`, value/mod.rs:551-556: the lowest bit of the address. -/
def Val.isMutable (m : Mem) (v : Val) : Bool := (m.base + v.pos) % 2 != 0

/-- `constants::NULL` (value/mod.rs:119), which `Value::null` (530-533) refers to. -/
def constNull : List UInt8 := [0x30, 0x00]

/-- `constants::UNDEFINED` (value/mod.rs:120), which `Value::undefined` (535-538) refers to. -/
def constUndefined : List UInt8 := [0x30 ||| 0x0C, 0x00]

/-- `constants::TRUE` and `constants::FALSE` (value/mod.rs:117-118), which `Value::bool` (540-547) refers to. -/
def constBool (b : Bool) : List UInt8 := if b then [0x30 ||| 0x08, 0x00] else [0x30 ||| 0x04, 0x00]

end Fleece
