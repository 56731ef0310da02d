import Verif.Spec.Serde
import Verif.Model.De

/-!
# Specification: reading a document as a type

Which value of a Rust type the content of a document stands for, whoever wrote it and from whatever type. This is what serde
and `#[derive(Deserialize)]` promise for a self-describing format: fields and variants go by name, fields the type does not
have are skipped, an `Option` that is not there is `None`, numbers have to be in range.
-/

namespace Fleece

/-- All keys in the document satisfy `K`. -/
inductive Tree.Keyed (K : List UInt8 → Prop) : Tree → Prop where
  | leaf {t : Tree} (na : ∀ xs, t ≠ .arr xs) (nd : ∀ kvs, t ≠ .dict kvs) : Tree.Keyed K t
  | arr {xs : List Tree} (of : ∀ x ∈ xs, Tree.Keyed K x) : Tree.Keyed K (.arr xs)
  | dict {kvs : List (List UInt8 × Tree)} (key : ∀ e ∈ kvs, K e.1) (of : ∀ e ∈ kvs, Tree.Keyed K e.2) :
      Tree.Keyed K (.dict kvs)

/-- No dict in the document has a key twice. -/
inductive Tree.Distinct : Tree → Prop where
  | leaf {t : Tree} (na : ∀ xs, t ≠ .arr xs) (nd : ∀ kvs, t ≠ .dict kvs) : Tree.Distinct t
  | arr {xs : List Tree} (of : ∀ x ∈ xs, Tree.Distinct x) : Tree.Distinct (.arr xs)
  | dict {kvs : List (List UInt8 × Tree)} (once : (kvs.map (·.1)).Nodup) (of : ∀ e ∈ kvs, Tree.Distinct e.2) :
      Tree.Distinct (.dict kvs)

/-- What reading depends on: conversions of numbers, the declared types, the names allowed for the fields of struct variants,
what stands for the `i`th variant of an enum, of that name, and whether variants with data may lack it (they should not). -/
structure Rules where
  F : FloatOps
  N : NumOps
  types : List Ty
  field : RStr → Prop
  tag : Nat → RStr → Tree → Prop
  lax : Prop

/-- `Fits R ty t y`: the document `t`, read as `ty`, is the value `y`. The order of dict entries does not matter. -/
inductive Fits (R : Rules) : Ty → Tree → SVal → Prop where
  | named {i : Nat} {ty : Ty} {t : Tree} {y : SVal} (decl : R.types[i]? = some ty) (of : Fits R ty t y) :
      Fits R (.named i) t y
  | bool (b : Bool) : Fits R .bool (.bool b) (.prim (.bool b))
  | int {t : IntTy} {n : Int} (of : t.Holds n) : Fits R (.int t) (.int n) (.prim (.int t n))
  | f32 (d : UInt64) : Fits R .f32 (.float d) (.prim (.f32 (R.F.narrow d)))
  | f32Int (i : Int) : Fits R .f32 (.int i) (.prim (.f32 (R.N.toF32 i)))
  | f64 {d : UInt64} (exact : ∀ b, R.F.widen b = d → R.F.widen (R.F.narrow d) = d) :
      Fits R .f64 (.float d) (.prim (.f64 d))
  | f64Int (i : Int) : Fits R .f64 (.int i) (.prim (.f64 (R.N.toF64 i)))
  | char {s : RStr} (one : (utf8Decode? s.bytes).map (·.length) = some 1) : Fits R .char (.str s.bytes) (.char s)
  | string (s : RStr) : Fits R .string (.str s.bytes) (.prim (.str s))
  | stringData (s : RStr) : Fits R .string (.data s.bytes) (.prim (.str s))
  | bytes (d : List UInt8) : Fits R .bytes (.data d) (.prim (.bytes d))
  | bytesStr (s : List UInt8) : Fits R .bytes (.str s) (.prim (.bytes s))
  | none (ty : Ty) : Fits R (.option ty) .null .none
  | some {ty : Ty} {t : Tree} {y : SVal} (there : t ≠ .null) (of : Fits R ty t y) :
      Fits R (.option ty) t (.some y)
  | unit : Fits R .unit .undefined .unit
  | unitStruct : Fits R .unitStruct .undefined .unitStruct
  /-- (not how this library writes newtype structs) -/
  | newtypeStruct {ty : Ty} {t : Tree} {rest : List Tree} {y : SVal} (of : Fits R ty t y) :
      Fits R (.newtypeStruct ty) (.arr (t :: rest)) (.newtypeStruct y)
  | seq {ty : Ty} {ts : List Tree} {ys : List SVal} (len : ts.length = ys.length)
      (of : ∀ (i : Nat) t y, ts[i]? = some t → ys[i]? = some y → Fits R ty t y) :
      Fits R (.seq ty) (.arr ts) (.seq (some ys.length) ys)
  /-- further elements are skipped -/
  | tuple {tys : List Ty} {ts : List Tree} {ys : List SVal} (len : tys.length = ys.length) (enough : tys.length ≤ ts.length)
      (of : ∀ (i : Nat) ty t y, tys[i]? = some ty → ts[i]? = some t → ys[i]? = some y → Fits R ty t y) :
      Fits R (.tuple tys) (.arr ts) (.tuple ys)
  | map {ty : Ty} {kvs : List (List UInt8 × Tree)} {ys : List (RStr × SVal)}
      (sorted : ys.Pairwise fun a b => a.1.bytes < b.1.bytes) (keys : (kvs.map (·.1)).Perm (ys.map fun y => y.1.bytes))
      (of : ∀ (k : RStr) t y, (k.bytes, t) ∈ kvs → (k, y) ∈ ys → Fits R ty t y) :
      Fits R (.map ty) (.dict kvs) (.map (ys.map fun e => (.prim (.str e.1), e.2)))
  /-- further entries are skipped -/
  | struct {fs : List (RStr × Ty)} {kvs : List (List UInt8 × Tree)} {ys : List (RStr × SVal)}
      (distinct : (fs.map (·.1)).Nodup) (once : (kvs.map (·.1)).Nodup) (names : ys.map (·.1) = fs.map (·.1))
      (of : ∀ (i : Nat) (f : RStr × Ty) (y : RStr × SVal) t, fs[i]? = some f → ys[i]? = some y → (f.1.bytes, t) ∈ kvs →
        Fits R f.2 t y.2)
      (missing : ∀ (i : Nat) (f : RStr × Ty) (y : RStr × SVal), fs[i]? = some f → ys[i]? = some y →
        f.1.bytes ∉ kvs.map (·.1) → (∃ t, f.2 = .option t) ∧ y.2 = .none) :
      Fits R (.struct fs) (.dict kvs) (.struct ys)
  | unitVariant {vs : List (RStr × Variant)} {i : Nat} {name : RStr} {tag : Tree} (distinct : (vs.map (·.1)).Nodup)
      (decl : vs[i]? = some (name, .unit)) (called : R.tag i name tag) : Fits R (.enum vs) (.arr [tag]) (.unitVariant name)
  | newtypeVariant {vs : List (RStr × Variant)} {i : Nat} {name : RStr} {ty : Ty} {tag t : Tree} {rest : List Tree}
      {y : SVal} (distinct : (vs.map (·.1)).Nodup) (decl : vs[i]? = some (name, .newtype ty)) (called : R.tag i name tag)
      (of : Fits R ty t y) :
      Fits R (.enum vs) (.arr (tag :: t :: rest)) (.newtypeVariant name y)
  | tupleVariant {vs : List (RStr × Variant)} {i : Nat} {name : RStr} {tys : List Ty} {tag : Tree} {ts rest : List Tree}
      {ys : List SVal} (distinct : (vs.map (·.1)).Nodup) (decl : vs[i]? = some (name, .tuple tys))
      (called : R.tag i name tag) (len : tys.length = ys.length)
      (len' : tys.length = ts.length)
      (of : ∀ (i : Nat) ty t y, tys[i]? = some ty → ts[i]? = some t → ys[i]? = some y → Fits R ty t y) :
      Fits R (.enum vs) (.arr (tag :: .arr ts :: rest)) (.tupleVariant name ys)
  | structVariant {vs : List (RStr × Variant)} {i : Nat} {name : RStr} {fs : List (RStr × Ty)}
      {tag : Tree} {kvs : List (List UInt8 × Tree)} {rest : List Tree} {ys : List (RStr × SVal)}
      (distinct : (vs.map (·.1)).Nodup) (decl : vs[i]? = some (name, .struct fs)) (called : R.tag i name tag)
      (fields : (fs.map (·.1)).Nodup)
      (once : (kvs.map (·.1)).Nodup) (len : kvs.length = fs.length) (keys : ∀ f ∈ fs, f.1.bytes ∈ kvs.map (·.1)) (look : ∀ f ∈ fs, R.field f.1) (names : ys.map (·.1) = fs.map (·.1))
      (of : ∀ (i : Nat) (f : RStr × Ty) (y : RStr × SVal) t, fs[i]? = some f → ys[i]? = some y → (f.1.bytes, t) ∈ kvs →
        Fits R f.2 t y.2) :
      Fits R (.enum vs) (.arr (tag :: .dict kvs :: rest)) (.structVariant name ys)
  /-- data that is not there -/
  | lost {vs : List (RStr × Variant)} {i : Nat} {name : RStr} {w : Variant} {tag : Tree} {y : SVal}
      (distinct : (vs.map (·.1)).Nodup) (decl : vs[i]? = some (name, w)) (data : w ≠ .unit) (called : R.tag i name tag)
      (lax : R.lax) : Fits R (.enum vs) (.arr [tag]) y

/-- A name: a string, or data with the same bytes. -/
def tagNamed (name : RStr) (t : Tree) : Prop := t = .str name.bytes ∨ t = .data name.bytes

/-- What should be: names stand for variants, and data has to be there. -/
def strictRules (F : FloatOps) (N : NumOps) (types : List Ty) (K : RStr → Prop) : Rules :=
  ⟨F, N, types, K, fun _ name t => tagNamed name t, False⟩

/-- What may stand for a variant: its name, or its number. -/
def tagLoose (i : Nat) (name : RStr) (t : Tree) : Prop := t = .str name.bytes ∨ t = .data name.bytes ∨ t = .int i

/-- What is: numbers stand for variants too (serde), and data that is not there may be made up. -/
def looseRules (F : FloatOps) (N : NumOps) (types : List Ty) (K : RStr → Prop) : Rules := ⟨F, N, types, K, tagLoose, True⟩

/-- The Rust rules for types: names of fields and variants are distinct. `K` holds of the fields of struct variants. -/
inductive Ty.Proper (K : RStr → Prop) : Ty → Prop where
  | bool : Ty.Proper K .bool
  | int (t : IntTy) : Ty.Proper K (.int t)
  | f32 : Ty.Proper K .f32
  | f64 : Ty.Proper K .f64
  | char : Ty.Proper K .char
  | string : Ty.Proper K .string
  | bytes : Ty.Proper K .bytes
  | option {t : Ty} (of : Ty.Proper K t) : Ty.Proper K (.option t)
  | unit : Ty.Proper K .unit
  | unitStruct : Ty.Proper K .unitStruct
  | newtypeStruct {t : Ty} (of : Ty.Proper K t) : Ty.Proper K (.newtypeStruct t)
  | seq {t : Ty} (of : Ty.Proper K t) : Ty.Proper K (.seq t)
  | tuple {ts : List Ty} (of : ∀ t ∈ ts, Ty.Proper K t) : Ty.Proper K (.tuple ts)
  | map {t : Ty} (of : Ty.Proper K t) : Ty.Proper K (.map t)
  | struct {fs : List (RStr × Ty)} (distinct : (fs.map (·.1)).Nodup) (of : ∀ f ∈ fs, Ty.Proper K f.2) : Ty.Proper K (.struct fs)
  | enum {vs : List (RStr × Variant)} (distinct : (vs.map (·.1)).Nodup)
      (newtype : ∀ name t, (name, Variant.newtype t) ∈ vs → Ty.Proper K t)
      (tuple : ∀ name ts, (name, Variant.tuple ts) ∈ vs → ∀ t ∈ ts, Ty.Proper K t)
      (fields : ∀ name fs, (name, Variant.struct fs) ∈ vs → (fs.map (·.1)).Nodup ∧ ∀ f ∈ fs, K f.1)
      (struct : ∀ name fs, (name, Variant.struct fs) ∈ vs → ∀ f ∈ fs, Ty.Proper K f.2) : Ty.Proper K (.enum vs)
  | named (i : Nat) : Ty.Proper K (.named i)

/-- Declared types are structs, enums and so on; an `Option` is not declared. -/
def Ty.Nominal (t : Ty) : Prop := (∀ u, t ≠ .option u) ∧ ∀ i, t ≠ .named i

end Fleece
