import Verif.Model.Macro
import Verif.Spec.Build

/-!
# Specification: what a `fleece!` literal stands for
-/

namespace Fleece

mutual
/-- The document: as it is written. -/
def Lit.tree (F : FloatOps) : Lit → Tree
  | .val x => x.tree F
  | .arr xs => .arr (Lit.trees F xs)
  | .dict kvs => .dict (Lit.entries F kvs)

def Lit.trees (F : FloatOps) : List Lit → List Tree
  | [] => []
  | x :: xs => x.tree F :: Lit.trees F xs

def Lit.entries (F : FloatOps) : List (RStr × Lit) → List (List UInt8 × Tree)
  | [] => []
  | kv :: kvs => (kv.1.bytes, kv.2.tree F) :: Lit.entries F kvs
end

mutual
/-- All values are in `S`, all keys in `K`. -/
def Lit.Every (S : Scalar → Prop) (K : RStr → Prop) : Lit → Prop
  | .val x => S x
  | .arr xs => Lit.EveryOf S K xs
  | .dict kvs => Lit.EveryEntry S K kvs

def Lit.EveryOf (S : Scalar → Prop) (K : RStr → Prop) : List Lit → Prop
  | [] => True
  | x :: xs => x.Every S K ∧ Lit.EveryOf S K xs

def Lit.EveryEntry (S : Scalar → Prop) (K : RStr → Prop) : List (RStr × Lit) → Prop
  | [] => True
  | kv :: kvs => K kv.1 ∧ kv.2.Every S K ∧ Lit.EveryEntry S K kvs
end

mutual
/-- No array is directly in an array (`begin_array()` in lib.rs:98 lacks its argument). -/
def Lit.Nests : Bool → Lit → Prop
  | _, .val _ => True
  | inArray, .arr xs => inArray = false ∧ Lit.NestsIn xs
  | _, .dict kvs => Lit.NestsOf kvs

def Lit.NestsIn : List Lit → Prop
  | [] => True
  | x :: xs => x.Nests true ∧ Lit.NestsIn xs

def Lit.NestsOf : List (RStr × Lit) → Prop
  | [] => True
  | kv :: kvs => kv.2.Nests false ∧ Lit.NestsOf kvs
end

/-- What the compiler accepts as an argument of `fleece!`: a dict, or an array that is not empty (`fleece![]` is an empty
dict, by the order of the rules), with no array directly in an array. -/
def Lit.Compiles (l : Lit) : Prop := (∀ x, l ≠ .val x) ∧ l ≠ .arr [] ∧ l.Nests false

end Fleece
