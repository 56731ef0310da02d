import Verif.Model.Encoder
import Verif.Model.Value

/-!
# `finish_value`, `Alloced` and the macro `fleece!` (encoder/mod.rs:63-71, alloced.rs, lib.rs:41-108)

An `Alloced` is a buffer with a pointer into it; here the position in it. The address at which the allocator puts the
buffer is a parameter (`base`).
-/

namespace Fleece

/-- `Result::unwrap`, or a panic. -/
def unwrap {α : Type} : R α → Exec α
  | .ok a => .ok a
  | .err _ => .panic
  | .panic => .panic
  | .ub => .ub
  | .diverge => .diverge

/-- `Alloced<T>`, alloced.rs:10-16: the buffer, as laid out in memory, and the value in it. -/
structure Alloced where
  mem : Mem
  value : Val

/-- `Value::clone_from_bytes`, value/mod.rs:175-180, with `AllocedValue::new_dangling`, alloced.rs:62-68. -/
def cloneFromBytes (dbg : Bool) (base : Nat) (data : List UInt8) : R Alloced := do
  let mem : Mem := ⟨data, base, dbg⟩
  let v ← fromBytes mem
  pure ⟨mem, v⟩

/-- `Value::clone_from_bytes_unchecked`, value/mod.rs:188-193. -/
def cloneFromBytesUnchecked (dbg : Bool) (base : Nat) (data : List UInt8) : R Alloced := do
  let mem : Mem := ⟨data, base, dbg⟩
  let v ← fromBytesUnchecked mem
  pure ⟨mem, v⟩

/-- `Encoder::finish_value`, encoder/mod.rs:63-71. `from_bytes_unchecked` has no `Result`, so `unwrap` only changes its type. -/
def Enc.finishValue (c : Cfg) (base : Nat) (e : Enc) : Exec Alloced := do
  let out ← e.finish c
  if c.dbg then unwrap (cloneFromBytes c.dbg base out) else unwrap (cloneFromBytesUnchecked c.dbg base out)

/-- `AllocedValue::to_array`, alloced.rs:38-47. -/
def Alloced.toArray (a : Alloced) : R (Option Alloced) := do
  let t ← a.value.type a.mem
  pure (if t = .array then some a else none)

/-- `AllocedValue::to_dict`, alloced.rs:51-60. -/
def Alloced.toDict (a : Alloced) : R (Option Alloced) := do
  let t ← a.value.type a.mem
  pure (if t = .dict then some a else none)

/-- `Array::clone_from_bytes`, array.rs:37-40. -/
def arrayCloneFromBytes (dbg : Bool) (base : Nat) (data : List UInt8) : R Alloced := do
  let a ← cloneFromBytes dbg base data
  match ← a.toArray with
  | some a => pure a
  | none => .err .isNotArray

/-- `Dict::clone_from_bytes`, dict.rs:45-48. -/
def dictCloneFromBytes (dbg : Bool) (base : Nat) (data : List UInt8) : R Alloced := do
  let a ← cloneFromBytes dbg base data
  match ← a.toDict with
  | some a => pure a
  | none => .err .isNotDict

/-- `AllocedArray::empty`, alloced.rs:79-85, and `Array::empty`, array.rs:43-46: two constant bytes, somewhere. -/
def Alloced.emptyArray (dbg : Bool) (base : Nat) : Alloced := ⟨⟨[0x60, 0], base, dbg⟩, ⟨0, 2⟩⟩

/-- `AllocedDict::empty`, alloced.rs:91-97, and `Dict::empty`, dict.rs:51-54. -/
def Alloced.emptyDict (dbg : Bool) (base : Nat) : Alloced := ⟨⟨[0x70, 0], base, dbg⟩, ⟨0, 2⟩⟩

/-- `Result::unwrap_unchecked`, and `let Ok(_) = … else { unreachable_unchecked() }`: undefined behaviour on `Err`. -/
def unwrapUnchecked (x : Exec (Enc × Except EncodeError Unit)) : Exec Enc := do
  match ← x with
  | (e, .ok ()) => .ok e
  | (_, .error _) => .ub

/-- `Option::unwrap_unchecked`. -/
def someUnchecked {α : Type} : Option α → Exec α
  | some a => .ok a
  | none => .ub

/-- What stands in `fleece!`: an expression of a type that is `Encodable`, `[ … ]`, or `{ key: … }`. -/
inductive Lit where
  | val (x : Scalar)
  | arr (xs : List Lit)
  | dict (kvs : List (RStr × Lit))

mutual
/-- The calls for a value in a collection: `(push $encoder => …)`, lib.rs:91-107, and those of `(insert $encoder => $key: …)`
after `write_key`, lib.rs:64-89. They are the same, except that the array in an array (lib.rs:97-101) calls
`begin_array()` without its argument and so does not compile; see `Lit.Compiles`. -/
def Lit.write (c : Cfg) : Lit → Enc → Exec Enc
  | .val x, e => unwrapUnchecked (e.writeValue c x)
  | .arr xs, e => do
    let e ← unwrapUnchecked (e.beginArray 10)
    let e ← Lit.pushAll c xs e
    unwrapUnchecked (e.endArray c)
  | .dict kvs, e => do
    let e ← unwrapUnchecked e.beginDict
    let e ← Lit.insertAll c kvs e
    unwrapUnchecked (e.endDict c)

/-- `$(fleece!(push encoder => $val);)*` -/
def Lit.pushAll (c : Cfg) : List Lit → Enc → Exec Enc
  | [], e => .ok e
  | x :: xs, e => do
    let e ← x.write c e
    Lit.pushAll c xs e

/-- `$(fleece!(insert encoder => $key: $val);)*` -/
def Lit.insertAll (c : Cfg) : List (RStr × Lit) → Enc → Exec Enc
  | [], e => .ok e
  | kv :: kvs, e => do
    let e ← unwrapUnchecked (e.writeKey c kv.1)
    let e ← kv.2.write c e
    Lit.insertAll c kvs e
end

/-- `fleece! { … }`, lib.rs:44-52, and `fleece! [ … ]`, lib.rs:54-62. A single expression is an array of one for the macro,
so `.val` does not occur here. -/
def Lit.fleece (c : Cfg) (base : Nat) (l : Lit) : Exec Alloced := do
  let e ← l.write c Enc.new
  let a ← e.finishValue c base
  match l with
  | .dict _ => do let d ← unwrap a.toDict; someUnchecked d
  | _ => do let d ← unwrap a.toArray; someUnchecked d

end Fleece
