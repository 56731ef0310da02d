import Verif.Model.De
import Verif.Spec.Lookup

/-!
# Specification: serde values as documents

The document a value should become, the typing of values, and the class of values this version of the code keeps.
-/

namespace Fleece

/-- Stands for a key that is not a string; such a map is never a document. -/
def badKeyText : RStr := ⟨[0x61, 0x61], by decide⟩

/-- `Some` and newtype structs do not show in the data. -/
def SVal.bare : SVal → SVal
  | .some v => v.bare
  | .newtypeStruct v => v.bare
  | v => v

/-- The text, of strings and `char`s. -/
def SVal.text (k : SVal) : Option RStr :=
  match k.bare with
  | .prim (.str s) => Option.some s
  | .char s => Option.some s
  | _ => Option.none

/-- The name of the type of other values. -/
def SVal.kind (k : SVal) : KeyType :=
  match k.bare with
  | .prim (.bool _) => .bool
  | .prim (.int _ _) => .int
  | .prim (.f32 _) | .prim (.f64 _) => .float
  | .prim (.bytes _) => .bytes
  | .none => .option
  | .unitVariant _ | .newtypeVariant _ _ | .tupleVariant _ _ | .structVariant _ _ => .enum
  | .seq _ _ => .sequence
  | .tuple _ => .tuple
  | .map _ => .map
  | .struct _ => .struct
  | _ => .unit

/-- The text of a key. -/
def SVal.keyText (k : SVal) : RStr := k.text.getD badKeyText

mutual
/-- The document. Enums are arrays: the name of the variant, then its data, if any (ser.rs:192, 215, 247, 273). -/
def SVal.tree (F : FloatOps) : SVal → Tree
  | .prim p => p.scalar.tree F
  | .char s => .str s.bytes
  | .none => .null
  | .some v => v.tree F
  | .unit => .undefined
  | .unitStruct => .null
  | .unitVariant name => .arr [.str name.bytes]
  | .newtypeStruct v => v.tree F
  | .newtypeVariant name v => .arr [.str name.bytes, v.tree F]
  | .seq _ vs => .arr (SVal.trees F vs)
  | .tuple vs => .arr (SVal.trees F vs)
  | .tupleVariant name vs => .arr [.str name.bytes, .arr (SVal.trees F vs)]
  | .map kvs => .dict (SVal.entryTrees F kvs)
  | .struct fs => .dict (SVal.fieldTrees F fs)
  | .structVariant name fs => .arr [.str name.bytes, .dict (SVal.fieldTrees F fs)]

def SVal.trees (F : FloatOps) : List SVal → List Tree
  | [] => []
  | v :: vs => v.tree F :: SVal.trees F vs

def SVal.entryTrees (F : FloatOps) : List (SVal × SVal) → List (List UInt8 × Tree)
  | [] => []
  | kv :: kvs => (kv.1.keyText.bytes, kv.2.tree F) :: SVal.entryTrees F kvs

def SVal.fieldTrees (F : FloatOps) : List (RStr × SVal) → List (List UInt8 × Tree)
  | [] => []
  | f :: fs => (f.1.bytes, f.2.tree F) :: SVal.fieldTrees F fs
end

/-! ## Errors -/

/-- Not a collection, possibly inside `Some` or a newtype struct. -/
def SVal.isScalar : SVal → Bool
  | .prim _ | .char _ | .none | .unit | .unitStruct => true
  | .some v => v.isScalar
  | .newtypeStruct v => v.isScalar
  | _ => false

mutual
/-- The kind of the first key that is not a string or `char`, in the order of writing, anywhere in the value. -/
def SVal.badKey : SVal → Option KeyType
  | .some v => v.badKey
  | .newtypeStruct v => v.badKey
  | .newtypeVariant _ v => v.badKey
  | .seq _ vs => SVal.badKeys vs
  | .tuple vs => SVal.badKeys vs
  | .tupleVariant _ vs => SVal.badKeys vs
  | .map kvs => SVal.badEntries kvs
  | .struct fs => SVal.badFields fs
  | .structVariant _ fs => SVal.badFields fs
  | _ => Option.none

def SVal.badKeys : List SVal → Option KeyType
  | [] => Option.none
  | v :: vs => v.badKey.or (SVal.badKeys vs)

def SVal.badEntries : List (SVal × SVal) → Option KeyType
  | [] => Option.none
  | kv :: kvs =>
    match kv.1.text with
    | Option.none => Option.some kv.1.kind
    | Option.some _ => kv.2.badKey.or (SVal.badEntries kvs)

def SVal.badFields : List (RStr × SVal) → Option KeyType
  | [] => Option.none
  | f :: fs => f.2.badKey.or (SVal.badFields fs)
end

/-! ## Values the encoder can write -/

mutual
/-- All scalars are in `S`, all names of variants and all strings too; all keys are in `K`; announced lengths of sequences
are not absurd. -/
def SVal.Every (S : Scalar → Prop) (K : RStr → Prop) : SVal → Prop
  | .prim p => S p.scalar
  | .char s => S (.str s)
  | .some v => v.Every S K
  | .unitVariant name => S (.str name)
  | .newtypeStruct v => v.Every S K
  | .newtypeVariant name v => S (.str name) ∧ v.Every S K
  | .seq hint vs => (∀ n, hint = Option.some n → n ≤ vs.length ∨ n * 4 < 2 ^ 63) ∧ SVal.EveryOf S K vs
  | .tuple vs => SVal.EveryOf S K vs
  | .tupleVariant name vs => S (.str name) ∧ SVal.EveryOf S K vs
  | .map kvs => SVal.EveryEntry S K kvs
  | .struct fs => SVal.EveryField S K fs
  | .structVariant name fs => S (.str name) ∧ SVal.EveryField S K fs
  | _ => True

def SVal.EveryOf (S : Scalar → Prop) (K : RStr → Prop) : List SVal → Prop
  | [] => True
  | v :: vs => v.Every S K ∧ SVal.EveryOf S K vs

def SVal.EveryEntry (S : Scalar → Prop) (K : RStr → Prop) : List (SVal × SVal) → Prop
  | [] => True
  | kv :: kvs => K kv.1.keyText ∧ kv.2.Every S K ∧ SVal.EveryEntry S K kvs

def SVal.EveryField (S : Scalar → Prop) (K : RStr → Prop) : List (RStr × SVal) → Prop
  | [] => True
  | f :: fs => K f.1 ∧ f.2.Every S K ∧ SVal.EveryField S K fs
end

/-- Scalars the encoder keeps, in all documents up to a certain size (`Op.Plain`). -/
def Scalar.Plain (x : Scalar) : Prop := x.Survives ∧ ¬ x.Tiny

/-- Keys the encoder keeps (`Op.Plain`). -/
def RStr.PlainKey (shared : Bool) (k : RStr) : Prop :=
  2 ≤ k.bytes.length ∧ k.bytes.length < 2 ^ 63 ∧ (shared = true → k.bytes.length ≠ 16)

/-! ## Types -/

/-- `n` is a number of the type: of so many bits, in two's complement or without a sign. -/
def IntTy.Holds : IntTy → Int → Prop
  | .i8, n => ∃ x : Int8, x.toInt = n
  | .i16, n => ∃ x : Int16, x.toInt = n
  | .i32, n => ∃ x : Int32, x.toInt = n
  | .i64, n => ∃ x : Int64, x.toInt = n
  | .u8, n => ∃ x : UInt8, (x.toNat : Int) = n
  | .u16, n => ∃ x : UInt16, (x.toNat : Int) = n
  | .u32, n => ∃ x : UInt32, (x.toNat : Int) = n
  | .u64, n => ∃ x : UInt64, (x.toNat : Int) = n

/-- `x` is a value of the type. Names of fields and variants are distinct; the keys of a `BTreeMap` ascend. -/
inductive HasTy (types : List Ty) : Ty → SVal → Prop where
  | named {i : Nat} {t : Ty} {x : SVal} (decl : types[i]? = some t) (of : HasTy types t x) : HasTy types (.named i) x
  | bool (b : Bool) : HasTy types .bool (.prim (.bool b))
  | int {t : IntTy} {n : Int} (of : t.Holds n) : HasTy types (.int t) (.prim (.int t n))
  | f32 (b : UInt32) : HasTy types .f32 (.prim (.f32 b))
  | f64 (b : UInt64) : HasTy types .f64 (.prim (.f64 b))
  | char {s : RStr} (one : (utf8Decode? s.bytes).map (·.length) = Option.some 1) : HasTy types .char (.char s)
  | string (s : RStr) : HasTy types .string (.prim (.str s))
  | bytes (d : List UInt8) : HasTy types .bytes (.prim (.bytes d))
  | none (t : Ty) : HasTy types (.option t) .none
  | some {t : Ty} {x : SVal} (of : HasTy types t x) : HasTy types (.option t) (.some x)
  | unit : HasTy types .unit .unit
  | unitStruct : HasTy types .unitStruct .unitStruct
  | newtypeStruct {t : Ty} {x : SVal} (of : HasTy types t x) : HasTy types (.newtypeStruct t) (.newtypeStruct x)
  | seq {t : Ty} {xs : List SVal} (of : ∀ x ∈ xs, HasTy types t x) : HasTy types (.seq t) (.seq (some xs.length) xs)
  | tuple {ts : List Ty} {xs : List SVal} (len : ts.length = xs.length)
      (of : ∀ (i : Nat) t x, ts[i]? = some t → xs[i]? = some x → HasTy types t x) : HasTy types (.tuple ts) (.tuple xs)
  | map {t : Ty} {kvs : List (RStr × SVal)} (sorted : kvs.Pairwise fun a b => a.1.bytes < b.1.bytes)
      (of : ∀ e ∈ kvs, HasTy types t e.2) : HasTy types (.map t) (.map (kvs.map fun e => (.prim (.str e.1), e.2)))
  | struct {fs : List (RStr × Ty)} {xs : List (RStr × SVal)} (names : xs.map (·.1) = fs.map (·.1))
      (distinct : (fs.map (·.1)).Nodup)
      (of : ∀ (i : Nat) (f : RStr × Ty) (x : RStr × SVal), fs[i]? = some f → xs[i]? = some x → HasTy types f.2 x.2) :
      HasTy types (.struct fs) (.struct xs)
  | unitVariant {vs : List (RStr × Variant)} {i : Nat} {name : RStr} (distinct : (vs.map (·.1)).Nodup)
      (decl : vs[i]? = some (name, .unit)) : HasTy types (.enum vs) (.unitVariant name)
  | newtypeVariant {vs : List (RStr × Variant)} {i : Nat} {name : RStr} {t : Ty} {x : SVal}
      (distinct : (vs.map (·.1)).Nodup) (decl : vs[i]? = some (name, .newtype t)) (of : HasTy types t x) :
      HasTy types (.enum vs) (.newtypeVariant name x)
  | tupleVariant {vs : List (RStr × Variant)} {i : Nat} {name : RStr} {ts : List Ty} {xs : List SVal}
      (distinct : (vs.map (·.1)).Nodup) (decl : vs[i]? = some (name, .tuple ts)) (len : ts.length = xs.length)
      (of : ∀ (i : Nat) t x, ts[i]? = some t → xs[i]? = some x → HasTy types t x) :
      HasTy types (.enum vs) (.tupleVariant name xs)
  | structVariant {vs : List (RStr × Variant)} {i : Nat} {name : RStr} {fs : List (RStr × Ty)} {xs : List (RStr × SVal)}
      (distinct : (vs.map (·.1)).Nodup) (decl : vs[i]? = some (name, .struct fs)) (names : xs.map (·.1) = fs.map (·.1))
      (fields : (fs.map (·.1)).Nodup)
      (of : ∀ (i : Nat) (f : RStr × Ty) (x : RStr × SVal), fs[i]? = some f → xs[i]? = some x → HasTy types f.2 x.2) :
      HasTy types (.enum vs) (.structVariant name xs)

mutual
/-- Values that come back: no unit structs and no newtype structs, `Some` of nothing that looks like `None`, and floats
that survive the conversions between 32 and 64 bits (true in IEEE arithmetic of all but NaNs, whose payload may change). -/
def SVal.Returns (F : FloatOps) : SVal → Prop
  | .prim (.f32 b) => F.narrow (F.widen b) = b
  | .prim (.f64 d) => ∀ b, F.widen b = d → F.widen (F.narrow d) = d
  | .some v => v.Returns F ∧ v.tree F ≠ .null
  | .unitStruct => False
  | .newtypeStruct _ => False
  | .newtypeVariant _ v => v.Returns F
  | .seq _ vs => SVal.ReturnsAll F vs
  | .tuple vs => SVal.ReturnsAll F vs
  | .tupleVariant _ vs => SVal.ReturnsAll F vs
  | .map kvs => SVal.ReturnsEntries F kvs
  | .struct fs => SVal.ReturnsFields F fs
  | .structVariant _ fs => SVal.ReturnsFields F fs
  | _ => True

def SVal.ReturnsAll (F : FloatOps) : List SVal → Prop
  | [] => True
  | v :: vs => v.Returns F ∧ SVal.ReturnsAll F vs

def SVal.ReturnsEntries (F : FloatOps) : List (SVal × SVal) → Prop
  | [] => True
  | kv :: kvs => kv.2.Returns F ∧ SVal.ReturnsEntries F kvs

def SVal.ReturnsFields (F : FloatOps) : List (RStr × SVal) → Prop
  | [] => True
  | f :: fs => f.2.Returns F ∧ SVal.ReturnsFields F fs
end

end Fleece
