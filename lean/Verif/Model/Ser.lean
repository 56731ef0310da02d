import Verif.Model.Encoder

/-!
# `src/ser.rs`: serialization

`SVal` is a value as its `Serialize` implementation presents it to a `Serializer`: the serde data model. A Rust type is
free in what it calls; the standard library and `#[derive(Serialize)]` make exactly the calls that `SVal` stands for
(begin, each part in order, end). Names of structs and enums and variant indices are ignored by the code and left out.
`i128`/`u128` are rejected by serde's defaults and left out.
-/

namespace Fleece

/-- The integer types of the serde data model that ser.rs:107-137 handles. -/
inductive IntTy where
  | i8 | i16 | i32 | i64 | u8 | u16 | u32 | u64
deriving DecidableEq, Repr

/-- Least value. -/
def IntTy.lo : IntTy → Int
  | i8 => -2 ^ 7
  | i16 => -2 ^ 15
  | i32 => -2 ^ 31
  | i64 => -2 ^ 63
  | _ => 0

/-- Greatest value. -/
def IntTy.hi : IntTy → Int
  | i8 => 2 ^ 7 - 1
  | i16 => 2 ^ 15 - 1
  | i32 => 2 ^ 31 - 1
  | i64 => 2 ^ 63 - 1
  | u8 => 2 ^ 8 - 1
  | u16 => 2 ^ 16 - 1
  | u32 => 2 ^ 32 - 1
  | u64 => 2 ^ 64 - 1

/-- The number `n` of the type, as the argument of `write_value` (ser.rs:107-137). -/
def IntTy.scalar (ty : IntTy) (n : Int) : Scalar :=
  match ty with
  | i8 => .i8 (Int8.ofInt n)
  | i16 => .i16 (Int16.ofInt n)
  | i32 => .i32 (Int32.ofInt n)
  | i64 => .i64 (Int64.ofInt n)
  | u8 => .u8 (UInt8.ofNat n.toNat)
  | u16 => .u16 (UInt16.ofNat n.toNat)
  | u32 => .u32 (UInt32.ofNat n.toNat)
  | u64 => .u64 (UInt64.ofNat n.toNat)

/-- What ser.rs:103-160 passes straight to `write_value`. -/
inductive Prim where
  | bool (b : Bool)
  | int (ty : IntTy) (n : Int)
  | f32 (bits : UInt32)
  | f64 (bits : UInt64)
  | str (s : RStr)
  | bytes (d : List UInt8)

/-- The argument of `write_value` (ser.rs:103-160). -/
def Prim.scalar : Prim → Scalar
  | bool b => .bool b
  | int ty n => ty.scalar n
  | f32 b => .f32 b
  | f64 b => .f64 b
  | str s => .str s
  | bytes d => .data d

/-- A value of the serde data model. A `char` is given by its UTF-8 string (`v.to_string()`, ser.rs:148). `tuple` stands
for tuples and tuple structs (ser.rs:226-236 treats them alike); their length is what is announced. `hint` is the length
announced by a sequence. -/
inductive SVal where
  | prim (p : Prim)
  | char (s : RStr)
  | none
  | some (v : SVal)
  | unit
  | unitStruct
  | unitVariant (name : RStr)
  | newtypeStruct (v : SVal)
  | newtypeVariant (name : RStr) (v : SVal)
  | seq (hint : Option Nat) (vs : List SVal)
  | tuple (vs : List SVal)
  | tupleVariant (name : RStr) (vs : List SVal)
  | map (kvs : List (SVal × SVal))
  | struct (fields : List (RStr × SVal))
  | structVariant (name : RStr) (fields : List (RStr × SVal))

/-- `KeyType`, ser.rs:297-310. -/
inductive KeyType where
  | bool | int | float | bytes | unit | option | enum | struct | tuple | sequence | map
deriving DecidableEq, Repr

/-- `Error` (error.rs:11-20) and `SerializeError` (ser.rs:60-64), as far as serializing can give them. -/
inductive SerError where
  | encode (x : EncodeError)
  | keyNotString (k : KeyType)
  | valueNotCollection
deriving DecidableEq, Repr

/-- `MapKeySerializer`, ser.rs:312-505: the text of a key, or the type that is complained about. -/
def SVal.key : SVal → Except KeyType RStr
  | .prim (.bool _) => .error .bool
  | .prim (.int _ _) => .error .int
  | .prim (.f32 _) => .error .float
  | .prim (.f64 _) => .error .float
  | .prim (.str s) => .ok s
  | .prim (.bytes _) => .error .bytes
  | .char s => .ok s
  | .none => .error .option
  | .some v => v.key
  | .unit => .error .unit
  | .unitStruct => .error .unit
  | .unitVariant _ => .error .enum
  | .newtypeStruct v => v.key
  | .newtypeVariant _ _ => .error .enum
  | .seq _ _ => .error .sequence
  | .tuple _ => .error .tuple
  | .tupleVariant _ _ => .error .enum
  | .map _ => .error .map
  | .struct _ => .error .struct
  | .structVariant _ _ => .error .enum

namespace Ser

/-- The state of the encoder after a call, and the `Result` of the call. -/
abbrev Out := Exec (Enc × Except SerError Unit)

/-- `.map_err(Error::Encode)`, or the conversion of `?`, after a call of the encoder. -/
def call (x : Enc.Out) : Out := do
  match ← x with
  | (e, .ok ()) => .ok (e, .ok ())
  | (e, .error x) => .ok (e, .error (.encode x))

/-- `?` -/
def andThen (x : Out) (f : Enc → Out) : Out := do
  match ← x with
  | (e, .ok ()) => f e
  | (e, .error x) => .ok (e, .error x)

/-- `SerializeMap::serialize_key`, ser.rs:511-516. -/
def key (c : Cfg) (k : SVal) (e : Enc) : Out :=
  match k.key with
  | .ok s => call (e.writeKey c s)
  | .error t => .ok (e, .error (.keyNotString t))

mutual
/-- `Serialize::serialize(value, &mut Serializer)`, ser.rs:92-279 with 281-295 (sequences), 507-528 (maps), 530-560
(tuples), 562-577 (tuple variants), 579-594 (structs), 596-611 (struct variants). -/
def value (c : Cfg) : SVal → Enc → Out
  | .prim p, e => call (e.writeValue c p.scalar)
  | .char s, e => call (e.writeValue c (.str s))
  | .none, e => call (e.writeValue c .null)
  | .some v, e => value c v e
  | .unit, e => call (e.writeValue c .undefined)
  | .unitStruct, e => call (e.writeValue c .null)
  | .unitVariant name, e =>
    andThen (call (e.beginArray 1)) fun e =>
    andThen (call (e.writeValue c (.str name))) fun e =>
    call (e.endArray c)
  | .newtypeStruct v, e => value c v e
  | .newtypeVariant name v, e =>
    andThen (call (e.beginArray 2)) fun e =>
    andThen (call (e.writeValue c (.str name))) fun e =>
    andThen (value c v e) fun e =>
    call (e.endArray c)
  | .seq hint vs, e =>
    andThen (call (e.beginArray (hint.getD 10))) fun e =>
    andThen (values c vs e) fun e =>
    call (e.endArray c)
  | .tuple vs, e =>
    andThen (call (e.beginArray vs.length)) fun e =>
    andThen (values c vs e) fun e =>
    call (e.endArray c)
  | .tupleVariant name vs, e =>
    andThen (call (e.beginArray 3)) fun e =>
    andThen (call (e.writeValue c (.str name))) fun e =>
    andThen (call (e.beginArray vs.length)) fun e =>
    andThen (values c vs e) fun e =>
    andThen (call (e.endArray c)) fun e =>
    call (e.endArray c)
  | .map kvs, e =>
    andThen (call e.beginDict) fun e =>
    andThen (entries c kvs e) fun e =>
    call (e.endDict c)
  | .struct fields, e =>
    andThen (call e.beginDict) fun e =>
    andThen (Ser.fields c fields e) fun e =>
    call (e.endDict c)
  | .structVariant name fields, e =>
    andThen (call (e.beginArray (fields.length + 2))) fun e =>
    andThen (call (e.writeValue c (.str name))) fun e =>
    andThen (call e.beginDict) fun e =>
    andThen (Ser.fields c fields e) fun e =>
    andThen (call (e.endDict c)) fun e =>
    call (e.endArray c)

/-- `serialize_element` for each. -/
def values (c : Cfg) : List SVal → Enc → Out
  | [], e => .ok (e, .ok ())
  | v :: vs, e => andThen (value c v e) fun e => values c vs e

/-- `serialize_key` and `serialize_value` for each. -/
def entries (c : Cfg) : List (SVal × SVal) → Enc → Out
  | [], e => .ok (e, .ok ())
  | kv :: kvs, e => andThen (key c kv.1 e) fun e => andThen (value c kv.2 e) fun e => entries c kvs e

/-- `serialize_field` for each, ser.rs:583-589. -/
def fields (c : Cfg) : List (RStr × SVal) → Enc → Out
  | [], e => .ok (e, .ok ())
  | f :: fs, e => andThen (call (e.writeKey c f.1)) fun e => andThen (value c f.2 e) fun e => fields c fs e
end

/-- `to_bytes` (`sk = none`), ser.rs:24-36; `to_bytes_with_shared_keys` (`sk = some SharedKeys.new`), ser.rs:45-58, up to
`Scope::new`: the bytes and the table. -/
def toBytes (c : Cfg) (sk : Option SharedKeys) (x : SVal) : Exec (Except SerError (List UInt8 × Option SharedKeys)) := do
  match ← value c x { Enc.new with sk } with
  | (e, .ok ()) => do
    let out ← e.finish c
    pure (.ok (out, e.sk))
  | (_, .error (.encode .collectionNotOpen)) => pure (.error .valueNotCollection)
  | (_, .error x) => pure (.error x)

end Ser
end Fleece
