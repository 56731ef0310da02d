import Verif.Model.Debug
import Verif.Model.Ser

/-!
# `src/de.rs`: deserialization

A `Deserialize` implementation asks the `Deserializer` for something and hands it a visitor. `Ty` are the Rust types whose
implementations come from serde itself (serde::de::impls) or from `#[derive(Deserialize)]` (without attributes); `Ty.de`
contains these implementations, as far as the calls they make and the visits they accept go; everything else is de.rs.
The values are given as `SVal`, i.e. as what serializing them again would present.
-/

namespace Fleece

mutual
/-- A Rust type. `named` is a reference to a type declared elsewhere, so recursive types are possible; `Box` is
transparent. `tuple` are tuples and tuple structs of more than one field, `map` is `BTreeMap<String, T>`, `bytes` is a byte
buffer such as `serde_bytes::ByteBuf`. -/
inductive Ty where
  | bool
  | int (t : IntTy)
  | f32
  | f64
  | char
  | string
  | bytes
  | option (t : Ty)
  | unit
  | unitStruct
  | newtypeStruct (t : Ty)
  | seq (t : Ty)
  | tuple (ts : List Ty)
  | map (t : Ty)
  | struct (fields : List (RStr × Ty))
  | enum (variants : List (RStr × Variant))
  | named (i : Nat)

/-- A variant of an enum. -/
inductive Variant where
  | unit
  | newtype (t : Ty)
  | tuple (ts : List Ty)
  | struct (fields : List (RStr × Ty))
end

/-- `Error` and `DeserializeError` (de.rs:54-62). `message` is serde's `Error::custom` (wrong type, missing field and so
on); the text is left out. -/
inductive DeError where
  | decode (e : DecodeError)
  | notArray
  | notDict
  | invalidEnumType (t : ValueType)
  | keyWithoutValue
  | invalidEnumLayout
  | cannotDecodeSharedKeys
  | message
deriving DecidableEq

/-- Outcome of deserializing. -/
abbrev D (α : Type) := Res DeError α

/-- A call of the reader. -/
def D.read {α : Type} : R α → D α
  | .ok a => .ok a
  | .err e => .err (.decode e)
  | .panic => .panic
  | .ub => .ub
  | .diverge => .diverge

/-- Conversions of numbers to floats that serde makes (`as f64`, `as f32`); a parameter of the model. -/
structure NumOps where
  toF64 : Int → UInt64
  toF32 : Int → UInt32

/-- Everything a deserializer depends on: the buffer, the shared keys found for it (`Deserializer::init`, de.rs:86-92; the
table is handed down unchanged), and the declared types. -/
structure DeCtx where
  m : Mem
  F : FloatOps
  N : NumOps
  scope : Option SharedKeys
  types : List Ty := []

/-- `Deserializer`, de.rs:11-15. -/
structure De where
  v : Val
  isKey : Bool

/-- `Deserializer::new` and `new_for_dict_key`, de.rs:94-118. -/
def De.new (x : DeCtx) (v : Val) (wide isKey : Bool) : D De := do
  let t ← D.read (v.type x.m)
  let v ← if t = .pointer then D.read (derefUnchecked x.m wide v) else pure v
  pure ⟨v, isKey⟩

/-- The method of the visitor that is called. `visit_i16` is `i64` too: a visitor has both, or the default of `visit_i16`,
which calls `visit_i64`. -/
inductive Visit where
  | none
  | unit
  | bool (b : Bool)
  | i64 (i : Int)
  | u64 (n : Nat)
  | f32 (bits : UInt32)
  | f64 (bits : UInt64)
  | str (s : List UInt8)
  | bytes (d : List UInt8)
  | seq (it : Iter)
  | map (it : Iter)

/-- `deserialize_any`, de.rs:124-162. `ArrayAccess::new` and `DictAccess::new` (de.rs:241-248, 279-286) make the iterator. -/
def De.any (x : DeCtx) (d : De) : D Visit := do
  match ← D.read (d.v.type x.m) with
  | .null => pure .none
  | .undefined => pure .unit
  | .false | .true => do let b ← D.read (d.v.toBool x.m x.F); pure (.bool b)
  | .short =>
    if d.isKey then do
      let n ← D.read (d.v.toUnsignedShort x.m x.F)
      match x.scope.bind (·.decode n) with
      | some s => pure (.str s)
      | none => .err .cannotDecodeSharedKeys
    else do let i ← D.read (d.v.toShort x.m x.F); pure (.i64 i)
  | .int => do let i ← D.read (d.v.toInt x.m x.F); pure (.i64 i)
  | .unsignedInt => do let n ← D.read (d.v.toUnsignedInt x.m x.F); pure (.u64 n)
  | .float => do let b ← D.read (d.v.toFloat x.m x.F); pure (.f32 b)
  | .double32 | .double64 => do let b ← D.read (d.v.toDouble x.m x.F); pure (.f64 b)
  | .string => do let s ← D.read (d.v.toStr x.m); pure (.str s)
  | .data => do let b ← D.read (d.v.toData x.m); pure (.bytes b)
  | .array => do let it ← D.read (d.v.iter x.m); pure (.seq it)
  | .dict => do let it ← D.read (d.v.dictIter x.m); pure (.map it)
  | .pointer => .panic

/-- `deserialize_seq`, de.rs:174-183: the visitor gets `visit_seq`. -/
def De.seq (x : DeCtx) (d : De) : D Iter := do
  match ← D.read (d.v.asArray x.m) with
  | some a => D.read (a.iter x.m)
  | none => .err .notArray

/-- `deserialize_map` and `deserialize_struct`, de.rs:185-206: the visitor gets `visit_map`. -/
def De.map (x : DeCtx) (d : De) : D Iter := do
  match ← D.read (d.v.asDict x.m) with
  | some a => D.read (a.dictIter x.m)
  | none => .err .notDict

/-- `next_element_seed` (de.rs:253-267) and `next_key_seed` (de.rs:291-305): the deserializer of the next value. -/
def De.next (x : DeCtx) (it : Iter) (isKey : Bool) : D (Option De × Iter) := do
  let (v, it') ← D.read (it.step x.m)
  match v with
  | none => pure (none, it')
  | some v => do
    let d ← De.new x v (it.width == 4) isKey
    pure (some d, it')

/-- `next_value_seed`, de.rs:307-319. -/
def De.nextValue (x : DeCtx) (it : Iter) : D (De × Iter) := do
  let (d, it') ← De.next x it false
  match d with
  | none => .err .keyWithoutValue
  | some d => pure (d, it')

/-! ## serde: sequences and maps -/

/-- `Vec::deserialize`: elements until there are no more. An array has finitely many: `n` bounds their number. -/
def De.all {α : Type} (x : DeCtx) (f : De → D α) : Nat → Iter → D (List α)
  | 0, _ => .diverge
  | n + 1, it => do
    let (d, it') ← De.next x it false
    match d with
    | none => pure []
    | some d => do
      let a ← f d
      let rest ← De.all x f n it'
      pure (a :: rest)

/-- Tuples: one element for each type; the rest is ignored, a missing one is an error. -/
def De.each {α : Type} (x : DeCtx) (f : Ty → De → D α) : List Ty → Iter → D (List α)
  | [], _ => pure []
  | t :: ts, it => do
    let (d, it') ← De.next x it false
    match d with
    | none => .err .message
    | some d => do
      let a ← f t d
      let rest ← De.each x f ts it'
      pure (a :: rest)

/-- `BTreeMap::insert` on the sorted list of entries: a later value replaces an earlier one. -/
def SVal.insert (k : RStr) (v : SVal) : List (RStr × SVal) → List (RStr × SVal)
  | [] => [(k, v)]
  | e :: es =>
    match cmpBytes k.bytes e.1.bytes with
    | .lt => (k, v) :: e :: es
    | .eq => (k, v) :: es
    | .gt => e :: SVal.insert k v es

/-- Keys and values until there are no more. -/
def De.pairs {α β : Type} (x : DeCtx) (fk : De → D α) (fv : α → De → D β) : Nat → Iter → D (List (α × β))
  | 0, _ => .diverge
  | n + 1, it => do
    let (d, it') ← De.next x it true
    match d with
    | none => pure []
    | some d => do
      let k ← fk d
      let (d', it'') ← De.nextValue x it'
      let v ← fv k d'
      let rest ← De.pairs x fk fv n it''
      pure ((k, v) :: rest)

/-- `IgnoredAny`: visits everything. `fuel` bounds the nesting depth. -/
def De.ignore (x : DeCtx) : Nat → De → D Unit
  | 0, _ => .diverge
  | fuel + 1, d => do
    match ← d.any x with
    | .seq it => do let _ ← De.all x (De.ignore x fuel) (it.len + 1) it; pure ()
    | .map it => do
      let _ ← De.pairs x (De.ignore x fuel) (fun _ => De.ignore x fuel) (it.len + 1) it
      pure ()
    | _ => pure ()

/-- A derived identifier (field or variant): by name, or by index if it is unsigned. `none`: no such name. -/
def De.ident (x : DeCtx) (names : List RStr) (d : De) : D (Option Nat) := do
  match ← d.any x with
  | .str s => pure (names.findIdx? fun n => n.bytes = s)
  | .bytes s => pure (names.findIdx? fun n => n.bytes = s)
  | .u64 n => pure (if n < names.length then some n else none)
  | _ => .err .message

/-- `visit_map` of a derived struct: fields in any order, unknown ones ignored, none twice. `got` are the values so far.
Afterwards every field must be there; a missing `Option` is `None`. -/
def De.fields (x : DeCtx) (fuel : Nat) (f : Ty → De → D SVal) (fs : List (RStr × Ty)) : Nat → Iter → List (Option SVal) →
    D (List (Option SVal))
  | 0, _, _ => .diverge
  | n + 1, it, got => do
    let (d, it') ← De.next x it true
    match d with
    | none => pure got
    | some d => do
      match ← De.ident x (fs.map (·.1)) d with
      | none => do
        let (d', it'') ← De.nextValue x it'
        De.ignore x fuel d'
        De.fields x fuel f fs n it'' got
      | some i =>
        match fs[i]?, got[i]? with
        | some (_, t), some none => do
          let (d', it'') ← De.nextValue x it'
          let v ← f t d'
          De.fields x fuel f fs n it'' (got.set i (some v))
        | _, _ => .err .message

/-- Is the type an `Option`? (A missing field of that type is `None`; serde's `missing_field`.) -/
def Ty.optional (types : List Ty) : Nat → Ty → Bool
  | _, .option _ => true
  | n + 1, .named i => match types[i]? with
    | some t => Ty.optional types n t
    | none => false
  | _, _ => false

/-- The struct, if nothing is missing. -/
def De.build (x : DeCtx) : List (RStr × Ty) → List (Option SVal) → D (List (RStr × SVal))
  | (k, _) :: fs, some v :: got => do
    let rest ← De.build x fs got
    pure ((k, v) :: rest)
  | (k, t) :: fs, none :: got =>
    if t.optional x.types (x.types.length + 1) then do
      let rest ← De.build x fs got
      pure ((k, .none) :: rest)
    else .err .message
  | _, _ => pure []

/-- A derived struct, from the iterator of `visit_map`. -/
def De.struct (x : DeCtx) (fuel : Nat) (f : Ty → De → D SVal) (fs : List (RStr × Ty)) (it : Iter) : D (List (RStr × SVal)) := do
  let got ← De.fields x fuel f fs (it.len + 1) it (fs.map fun _ => none)
  De.build x fs got

/-! ## Enums -/

/-- `format!("{:?}", self.array)`, the text of `InvalidEnumLayout`. It is an argument of `ok_or`, so it is made whether there
is an error or not. `fuel` bounds the nesting depth. Whether it can be made does not depend on how floats and characters are
written, and the text itself is dropped: errors are told apart by their variant only. -/
def De.format (x : DeCtx) (fuel : Nat) (a : Val) : D Unit := do
  let _ ← D.read (a.debugArray x.m (Val.debug ⟨fun _ => [], fun _ => true⟩ x.m x.F x.scope fuel))
  pure ()

/-- `Err(InvalidEnumLayout(format!(..)))`. -/
def De.badLayout {α : Type} (x : DeCtx) (fuel : Nat) (a : Val) : D α := do
  De.format x fuel a
  .err .invalidEnumLayout

/-- `array.get(i).ok_or(InvalidEnumLayout(format!(..)))?`, de.rs:346-351, 381-386, 399-404, 423-428. -/
def De.elem (x : DeCtx) (fuel : Nat) (a : Val) (i : Nat) : D Val := do
  let v ← D.read (a.get x.m i)
  De.format x fuel a
  match v with
  | none => .err .invalidEnumLayout
  | some v => pure v

/-- `variant_seed` (de.rs:341-360, `i = 0`), `newtype_variant_seed` (de.rs:376-392, `i = 1`). -/
def De.part (x : DeCtx) (fuel : Nat) (a : Val) (i : Nat) : D De := do
  let v ← De.elem x fuel a i
  let w ← D.read (a.isWide x.m)
  De.new x v w false

/-- `tuple_variant`, de.rs:394-416. -/
def De.tupleVariant (x : DeCtx) (fuel : Nat) (f : Ty → De → D SVal) (a : Val) (ts : List Ty) : D (List SVal) := do
  let v ← De.elem x fuel a 1
  match ← D.read (v.asArray x.m) with
  | none => De.badLayout x fuel a
  | some b => do
    let n ← D.read (b.arrayLen x.m)
    if n = ts.length then do
      let w ← D.read (a.isWide x.m)
      let d ← De.new x v w false
      let it ← d.seq x
      De.each x f ts it
    else De.badLayout x fuel a

/-- `all` in `struct_variant`, de.rs:431-437: `contains_key_with_shared_keys` if there are shared keys, else `contains_key`. -/
def De.hasKeys (x : DeCtx) (b : Val) : List RStr → D Bool
  | [] => pure true
  | k :: ks => do
    let r ← match x.scope with
      | some sk => do let r ← D.read (b.dictGetWith x.m sk k.bytes); pure r.isSome
      | none => D.read (b.containsKey x.m none k.bytes)
    if r then De.hasKeys x b ks else pure false

/-- `struct_variant`, de.rs:418-450. -/
def De.structVariant (x : DeCtx) (fuel : Nat) (f : Ty → De → D SVal) (a : Val) (fs : List (RStr × Ty)) :
    D (List (RStr × SVal)) := do
  let v ← De.elem x fuel a 1
  match ← D.read (v.asDict x.m) with
  | none => De.badLayout x fuel a
  | some b => do
    let n ← D.read (b.dictLen x.m)
    if n = fs.length then do
      let all ← De.hasKeys x b (fs.map (·.1))
      if all then do
        let w ← D.read (a.isWide x.m)
        let d ← De.new x v w false
        let it ← d.map x
        De.struct x fuel f fs it
      else De.badLayout x fuel a
    else De.badLayout x fuel a

/-- `deserialize_enum` (de.rs:208-224) with the visitor of a derived enum, and `unit_variant` (de.rs:366-374). -/
def De.enum (x : DeCtx) (fuel : Nat) (f : Ty → De → D SVal) (vs : List (RStr × Variant)) (d : De) : D SVal := do
  match ← D.read (d.v.asArray x.m) with
  | none => do
    let t ← D.read (d.v.type x.m)
    .err (.invalidEnumType t)
  | some a => do
    let v ← De.part x fuel a 0
    match ← De.ident x (vs.map (·.1)) v with
    | none => .err .message
    | some i =>
      match vs[i]? with
      | none => .err .message
      | some (name, .unit) => do
        let n ← D.read (a.arrayLen x.m)
        if n = 1 then pure (.unitVariant name) else De.badLayout x fuel a
      | some (name, .newtype t) => do
        let p ← De.part x fuel a 1
        let v ← f t p
        pure (.newtypeVariant name v)
      | some (name, .tuple ts) => do
        let vs ← De.tupleVariant x fuel f a ts
        pure (.tupleVariant name vs)
      | some (name, .struct fs) => do
        let vs ← De.structVariant x fuel f a fs
        pure (.structVariant name vs)

/-! ## All types -/

/-- `T::deserialize(&Deserializer)`. `fuel` bounds the nesting depth (of types and values). -/
def Ty.de (x : DeCtx) : Nat → Ty → De → D SVal
  | 0, _, _ => .diverge
  | fuel + 1, ty, d =>
    match ty with
    | .named i =>
      match x.types[i]? with
      | some t => Ty.de x fuel t d
      | none => .panic   -- not a type
    | .bool => do
      match ← d.any x with
      | .bool b => pure (.prim (.bool b))
      | _ => .err .message
    | .int t => do
      match ← d.any x with
      | .i64 i => if t.lo ≤ i ∧ i ≤ t.hi then pure (.prim (.int t i)) else .err .message
      | .u64 n => if (n : Int) ≤ t.hi then pure (.prim (.int t n)) else .err .message
      | _ => .err .message
    | .f32 => do
      match ← d.any x with
      | .f32 b => pure (.prim (.f32 b))
      | .f64 b => pure (.prim (.f32 (x.F.narrow b)))
      | .i64 i => pure (.prim (.f32 (x.N.toF32 i)))
      | .u64 n => pure (.prim (.f32 (x.N.toF32 n)))
      | _ => .err .message
    | .f64 => do
      match ← d.any x with
      | .f32 b => pure (.prim (.f64 (x.F.widen b)))
      | .f64 b => pure (.prim (.f64 b))
      | .i64 i => pure (.prim (.f64 (x.N.toF64 i)))
      | .u64 n => pure (.prim (.f64 (x.N.toF64 n)))
      | _ => .err .message
    | .char => do
      match ← d.any x with
      | .str s =>
        if h : validUtf8 s = true then
          if (utf8Decode? s).map (·.length) = some 1 then pure (.char ⟨s, h⟩) else .err .message
        else .panic   -- `visit_str` gets a `&str`
      | _ => .err .message
    | .string => do
      match ← d.any x with
      | .str s => if h : validUtf8 s = true then pure (.prim (.str ⟨s, h⟩)) else .panic
      | .bytes s => if h : validUtf8 s = true then pure (.prim (.str ⟨s, h⟩)) else .err .message
      | _ => .err .message
    | .bytes => do
      match ← d.any x with
      | .bytes b => pure (.prim (.bytes b))
      | .str s => pure (.prim (.bytes s))
      | _ => .err .message   -- (`visit_seq` is not supported by all such types)
    | .option t => do
      match ← D.read (d.v.type x.m) with   -- `deserialize_option`, de.rs:164-172
      | .null => pure .none
      | _ => do
        let v ← Ty.de x fuel t d
        pure (.some v)
    | .unit => do
      match ← d.any x with
      | .unit => pure .unit
      | _ => .err .message
    | .unitStruct => do
      match ← d.any x with
      | .unit => pure .unitStruct
      | _ => .err .message
    | .newtypeStruct t => do
      match ← d.any x with
      | .seq it => do   -- the derived visitor also takes a sequence, and its first element
        let vs ← De.each x (Ty.de x fuel) [t] it
        match vs with
        | v :: _ => pure (.newtypeStruct v)
        | [] => .err .message
      | _ => .err .message
    | .seq t => do
      let it ← d.seq x
      let vs ← De.all x (Ty.de x fuel t) (it.len + 1) it
      pure (.seq (some vs.length) vs)
    | .tuple ts => do
      match ← d.any x with
      | .seq it => do
        let vs ← De.each x (Ty.de x fuel) ts it
        pure (.tuple vs)
      | _ => .err .message
    | .map t => do
      let it ← d.map x
      let kvs ← De.pairs x (fun k => do
        match ← Ty.de x fuel .string k with
        | .prim (.str s) => pure s
        | _ => .err .message) (fun _ => Ty.de x fuel t) (it.len + 1) it
      pure (.map ((kvs.foldl (fun acc e => SVal.insert e.1 e.2 acc) []).map fun e => (.prim (.str e.1), e.2)))
    | .struct fs => do
      let it ← d.map x
      let vs ← De.struct x fuel (Ty.de x fuel) fs it
      pure (.struct vs)
    | .enum vs => De.enum x fuel (Ty.de x fuel) vs d

/-- `from_bytes`, de.rs:45-52. -/
def Ty.fromBytes (x : DeCtx) (fuel : Nat) (ty : Ty) : D SVal := do
  let v ← D.read (Fleece.fromBytes x.m)
  let d ← De.new x v false false
  Ty.de x fuel ty d

end Fleece
