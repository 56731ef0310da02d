import Verif.Spec.Serde

/-!
# Specification: what a deserialization looks at

`Meets x ty v ty' v'`: reading the value `v` as the type `ty` may come to reading `v'` as `ty'`.
-/

namespace Fleece

/-- `e` is the element of the collection `v` at `i`. In a dict keys are at even and values at odd positions. -/
def Val.Elem (m : Mem) (v : Val) (i : Nat) (e : Val) : Prop :=
  ∃ n, v.arrayLen m = .ok n ∧ i < n ∧ v.getUnchecked m i = .ok e

/-- One step of `Meets`. -/
inductive Asks (x : DeCtx) : Ty → Val → Ty → Val → Prop where
  | named {i : Nat} {t : Ty} {v : Val} (decl : x.types[i]? = some t) : Asks x (.named i) v t v
  | option {t : Ty} {v : Val} : Asks x (.option t) v t v
  | newtypeStruct {t : Ty} {v e : Val} (el : v.Elem x.m 0 e) : Asks x (.newtypeStruct t) v t e
  | seq {t : Ty} {v e : Val} {i : Nat} (el : v.Elem x.m i e) : Asks x (.seq t) v t e
  | tuple {ts : List Ty} {t : Ty} {v e : Val} {i : Nat} (mem : ts[i]? = some t) (el : v.Elem x.m i e) :
      Asks x (.tuple ts) v t e
  | map {t : Ty} {v e : Val} {i : Nat} (el : v.Elem x.m (2 * i + 1) e) : Asks x (.map t) v t e
  | field {fs : List (RStr × Ty)} {k : RStr} {t : Ty} {v e : Val} {i : Nat} (mem : (k, t) ∈ fs)
      (el : v.Elem x.m (2 * i + 1) e) : Asks x (.struct fs) v t e
  | newtypeVariant {vs : List (RStr × Variant)} {k : RStr} {t : Ty} {v e : Val} (mem : (k, .newtype t) ∈ vs)
      (el : v.Elem x.m 1 e) : Asks x (.enum vs) v t e
  | tupleVariant {vs : List (RStr × Variant)} {k : RStr} {ts : List Ty} {v e : Val} (mem : (k, .tuple ts) ∈ vs)
      (el : v.Elem x.m 1 e) : Asks x (.enum vs) v (.tuple ts) e
  | structVariant {vs : List (RStr × Variant)} {k : RStr} {fs : List (RStr × Ty)} {v e : Val}
      (mem : (k, .struct fs) ∈ vs) (el : v.Elem x.m 1 e) : Asks x (.enum vs) v (.struct fs) e

/-- See the module comment. -/
inductive Meets (x : DeCtx) (ty : Ty) (v : Val) : Ty → Val → Prop where
  | refl : Meets x ty v ty v
  | step {ty' ty'' : Ty} {v' v'' : Val} : Meets x ty v ty' v' → Asks x ty' v' ty'' v'' → Meets x ty v ty'' v''

/-- Where the array `a` is read as an enum, it has the elements that are looked at: one, and another one unless the first
names a variant without data. -/
def EnumRoom (m : Mem) (vs : List (RStr × Variant)) (a : Val) : Prop :=
  a.type m = .ok .array → ∃ n, a.arrayLen m = .ok n ∧ 1 ≤ n ∧ (2 ≤ n ∨ ∀ e, a.Elem m 0 e → e.type m ≠ .ok .unsignedInt ∧
    ∀ k d, (k, d) ∈ vs → d ≠ .unit → e.toStr m ≠ .ok k.bytes ∧ e.toData m ≠ .ok k.bytes)

/-- A type that is declared by name: a struct, a tuple struct or an enum. (Aliases are not types of their own.) -/
def Ty.Declared : Ty → Prop
  | .unitStruct | .newtypeStruct _ | .tuple _ | .struct _ | .enum _ => True
  | _ => False

mutual
/-- No enum occurs in the type. -/
def Ty.enumFree : Ty → Bool
  | .enum _ => false
  | .option t => t.enumFree
  | .newtypeStruct t => t.enumFree
  | .seq t => t.enumFree
  | .map t => t.enumFree
  | .tuple ts => Ty.enumFrees ts
  | .struct fs => Ty.enumFreeFields fs
  | _ => true

def Ty.enumFrees : List Ty → Bool
  | [] => true
  | t :: ts => t.enumFree && Ty.enumFrees ts

def Ty.enumFreeFields : List (RStr × Ty) → Bool
  | [] => true
  | f :: fs => f.2.enumFree && Ty.enumFreeFields fs
end

end Fleece
