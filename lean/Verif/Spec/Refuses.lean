import Verif.Spec.Fits

/-!
# Specification: documents that do not fit a type

Which error `from_bytes` should return for a document that is not of the type asked for, at whatever depth the mismatch is.
Parts of the document that are read before the mismatch have to fit (`Fits`, under the rules that should be); entries of
dicts are read in the order of the document, which is not the caller's, so all other entries have to fit.
-/

namespace Fleece

/-- The kinds of error: `DeserializeError::{NotArray, NotDict, InvalidEnumType, InvalidEnumLayout}`, and serde's own messages
(wrong type, number out of range, missing field, unknown variant and so on); or any of these. -/
inductive Refusal where
  | notArray
  | notDict
  | enumType
  | enumLayout
  | message
  | any
deriving DecidableEq

/-- The error is of this kind. -/
def Refusal.Is : Refusal → DeError → Prop
  | .notArray, e => e = .notArray
  | .notDict, e => e = .notDict
  | .enumType, e => ∃ t, e = .invalidEnumType t
  | .enumLayout, e => e = .invalidEnumLayout
  | .message, e => e = .message
  | .any, _ => True

/-- Something the visitor of that type does not take. -/
def Ty.Mismatch : Ty → Tree → Prop
  | .bool, t => ∀ b, t ≠ .bool b
  | .int ty, t => ∀ n, t = .int n → ¬ ty.Holds n
  | .f32, t | .f64, t => (∀ d, t ≠ .float d) ∧ ∀ n, t ≠ .int n
  | .char, t => ∀ s, t = .str s → validUtf8 s = true ∧ (utf8Decode? s).map (·.length) ≠ some 1
  | .string, t => (∀ s, t ≠ .str s) ∧ ∀ d, t = .data d → validUtf8 d = false
  | .bytes, t => (∀ s, t ≠ .str s) ∧ ∀ d, t ≠ .data d
  | .unit, t | .unitStruct, t => t ≠ .undefined
  | .newtypeStruct _, t | .tuple _, t => ∀ xs, t ≠ .arr xs
  | _, _ => False

/-- Not the name or the number of a variant. -/
def Tree.NoVariant (names : List RStr) (t : Tree) : Prop :=
  (∀ s, t = .str s ∨ t = .data s → ∀ n ∈ names, n.bytes ≠ s) ∧ ∀ i : Nat, t = .int i → names.length ≤ i

/-- A field that has to be there. -/
def Ty.Required (types : List Ty) (ty : Ty) : Prop :=
  (∀ t, ty ≠ .option t) ∧ ∀ i, ty = .named i → ∀ t, types[i]? = some t → t.Nominal

/-- `Refuses R ty t r`: the document `t`, asked for as `ty`, is refused with an error of kind `r`. -/
inductive Refuses (R : Rules) : Ty → Tree → Refusal → Prop where
  | any {ty : Ty} {t : Tree} {r : Refusal} (of : Refuses R ty t r) : Refuses R ty t .any
  | named {i : Nat} {ty : Ty} {t : Tree} {r : Refusal} (decl : R.types[i]? = some ty) (of : Refuses R ty t r) :
      Refuses R (.named i) t r
  | some {ty : Ty} {t : Tree} {r : Refusal} (there : t ≠ .null) (of : Refuses R ty t r) : Refuses R (.option ty) t r
  | mismatch {ty : Ty} {t : Tree} (no : ty.Mismatch t) : Refuses R ty t .message
  | notArray {ty : Ty} {t : Tree} (no : ∀ xs, t ≠ .arr xs) : Refuses R (.seq ty) t .notArray
  | notMap {ty : Ty} {t : Tree} (no : ∀ kvs, t ≠ .dict kvs) : Refuses R (.map ty) t .notDict
  | notStruct {fs : List (RStr × Ty)} {t : Tree} (no : ∀ kvs, t ≠ .dict kvs) : Refuses R (.struct fs) t .notDict
  | notEnum {vs : List (RStr × Variant)} {t : Tree} (no : ∀ xs, t ≠ .arr xs) : Refuses R (.enum vs) t .enumType
  | seq {ty : Ty} {ts : List Tree} {i : Nat} {t : Tree} {r : Refusal} (at_ : ts[i]? = some t) (of : Refuses R ty t r)
      (before : ∀ (j : Nat) t, j < i → ts[j]? = some t → ∃ y, Fits R ty t y) : Refuses R (.seq ty) (.arr ts) r
  | newtypeStruct {ty : Ty} {t : Tree} {ts : List Tree} {r : Refusal} (of : Refuses R ty t r) :
      Refuses R (.newtypeStruct ty) (.arr (t :: ts)) r
  | newtypeEmpty {ty : Ty} : Refuses R (.newtypeStruct ty) (.arr []) .message
  | tuple {tys : List Ty} {ts : List Tree} {i : Nat} {ty : Ty} {t : Tree} {r : Refusal} (ty_ : tys[i]? = some ty)
      (at_ : ts[i]? = some t) (of : Refuses R ty t r)
      (before : ∀ (j : Nat) ty t, j < i → tys[j]? = some ty → ts[j]? = some t → ∃ y, Fits R ty t y) :
      Refuses R (.tuple tys) (.arr ts) r
  | tupleShort {tys : List Ty} {ts : List Tree} (short : ts.length < tys.length)
      (each : ∀ (j : Nat) ty t, tys[j]? = some ty → ts[j]? = some t → ∃ y, Fits R ty t y) :
      Refuses R (.tuple tys) (.arr ts) .message
  /-- the entries with the keys `bad` are refused, all others fit -/
  | map {ty : Ty} {kvs : List (List UInt8 × Tree)} {r : Refusal} (bad : List UInt8 → Prop)
      (text : ∀ e ∈ kvs, validUtf8 e.1 = true) (some_ : ∃ e ∈ kvs, bad e.1) (of : ∀ e ∈ kvs, bad e.1 → Refuses R ty e.2 r)
      (others : ∀ e ∈ kvs, ¬ bad e.1 → ∃ y, Fits R ty e.2 y) : Refuses R (.map ty) (.dict kvs) r
  /-- the fields called `bad` are refused, all others fit -/
  | field {fs : List (RStr × Ty)} {kvs : List (List UInt8 × Tree)} {r : Refusal} (bad : RStr → Prop)
      (distinct : (fs.map (·.1)).Nodup) (once : (kvs.map (·.1)).Nodup)
      (some_ : ∃ f ∈ fs, bad f.1 ∧ f.1.bytes ∈ kvs.map (·.1))
      (of : ∀ f ∈ fs, bad f.1 → ∀ t, (f.1.bytes, t) ∈ kvs → Refuses R f.2 t r)
      (others : ∀ f ∈ fs, ¬ bad f.1 → ∀ t, (f.1.bytes, t) ∈ kvs → ∃ y, Fits R f.2 t y) :
      Refuses R (.struct fs) (.dict kvs) r
  | missing {fs : List (RStr × Ty)} {kvs : List (List UInt8 × Tree)} {f : RStr × Ty}
      (distinct : (fs.map (·.1)).Nodup) (once : (kvs.map (·.1)).Nodup) (known : f ∈ fs) (required : f.2.Required R.types)
      (gone : f.1.bytes ∉ kvs.map (·.1)) (others : ∀ g ∈ fs, ∀ t, (g.1.bytes, t) ∈ kvs → ∃ y, Fits R g.2 t y) :
      Refuses R (.struct fs) (.dict kvs) .message
  | noVariant {vs : List (RStr × Variant)} {tag : Tree} {rest : List Tree} (no : tag.NoVariant (vs.map (·.1))) :
      Refuses R (.enum vs) (.arr (tag :: rest)) .message
  | unitLayout {vs : List (RStr × Variant)} {i : Nat} {name : RStr} {tag : Tree} {x : Tree} {rest : List Tree}
      (distinct : (vs.map (·.1)).Nodup) (decl : vs[i]? = some (name, .unit)) (called : R.tag i name tag) :
      Refuses R (.enum vs) (.arr (tag :: x :: rest)) .enumLayout
  | newtypeVariant {vs : List (RStr × Variant)} {i : Nat} {name : RStr} {tag : Tree} {ty : Ty} {x : Tree} {rest : List Tree} {r : Refusal}
      (distinct : (vs.map (·.1)).Nodup) (decl : vs[i]? = some (name, .newtype ty)) (called : R.tag i name tag) (of : Refuses R ty x r) :
      Refuses R (.enum vs) (.arr (tag :: x :: rest)) r
  | tupleLayout {vs : List (RStr × Variant)} {i : Nat} {name : RStr} {tag : Tree} {tys : List Ty} {x : Tree} {rest : List Tree}
      (distinct : (vs.map (·.1)).Nodup) (decl : vs[i]? = some (name, .tuple tys)) (called : R.tag i name tag)
      (no : ∀ xs, x = .arr xs → xs.length ≠ tys.length) :
      Refuses R (.enum vs) (.arr (tag :: x :: rest)) .enumLayout
  | tupleVariant {vs : List (RStr × Variant)} {i : Nat} {name : RStr} {tag : Tree} {tys : List Ty} {xs : List Tree} {rest : List Tree}
      {r : Refusal} (distinct : (vs.map (·.1)).Nodup) (decl : vs[i]? = some (name, .tuple tys)) (called : R.tag i name tag)
      (len : xs.length = tys.length) (of : Refuses R (.tuple tys) (.arr xs) r) :
      Refuses R (.enum vs) (.arr (tag :: .arr xs :: rest)) r
  | structLayout {vs : List (RStr × Variant)} {i : Nat} {name : RStr} {tag : Tree} {fs : List (RStr × Ty)} {x : Tree} {rest : List Tree}
      (distinct : (vs.map (·.1)).Nodup) (decl : vs[i]? = some (name, .struct fs)) (called : R.tag i name tag) (look : ∀ f ∈ fs, R.field f.1)
      (no : ∀ kvs, x = .dict kvs → kvs.length ≠ fs.length ∨ ∃ f ∈ fs, f.1.bytes ∉ kvs.map (·.1)) :
      Refuses R (.enum vs) (.arr (tag :: x :: rest)) .enumLayout
  | structVariant {vs : List (RStr × Variant)} {i : Nat} {name : RStr} {tag : Tree} {fs : List (RStr × Ty)}
      {kvs : List (List UInt8 × Tree)} {rest : List Tree} {r : Refusal} (distinct : (vs.map (·.1)).Nodup)
      (decl : vs[i]? = some (name, .struct fs)) (called : R.tag i name tag) (look : ∀ f ∈ fs, R.field f.1) (len : kvs.length = fs.length)
      (keys : ∀ f ∈ fs, f.1.bytes ∈ kvs.map (·.1)) (of : Refuses R (.struct fs) (.dict kvs) r) :
      Refuses R (.enum vs) (.arr (tag :: .dict kvs :: rest)) r

end Fleece
