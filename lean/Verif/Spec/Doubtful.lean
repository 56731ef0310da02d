import Verif.Spec.Refuses

/-!
# Specification: documents in which an enum is doubtful

The places where what the deserializer does with an enum depends on more than the content of the document: an array without a
name, a number in place of the name (whether it counts depends on how the number was encoded), and a name without the data
that goes with it. Everywhere else, a document fits a type or is refused.
-/

namespace Fleece

/-- All strings and keys in the document are UTF-8. -/
inductive Tree.Utf8 : Tree → Prop where
  | leaf {t : Tree} (na : ∀ xs, t ≠ .arr xs) (nd : ∀ kvs, t ≠ .dict kvs) (str : ∀ s, t = .str s → validUtf8 s = true) : Tree.Utf8 t
  | arr {xs : List Tree} (of : ∀ x ∈ xs, Tree.Utf8 x) : Tree.Utf8 (.arr xs)
  | dict {kvs : List (List UInt8 × Tree)} (key : ∀ e ∈ kvs, validUtf8 e.1 = true) (of : ∀ e ∈ kvs, Tree.Utf8 e.2) :
      Tree.Utf8 (.dict kvs)

/-- `Doubtful types ty t`: somewhere in the document `t`, asked for as `ty`, an enum is asked for where there is none of the
things that stand for a value of an enum, but something that may be taken for one; or a type is asked for that is not declared. -/
inductive Doubtful (types : List Ty) : Ty → Tree → Prop where
  | undeclared {i : Nat} {t : Tree} (no : types[i]? = none) : Doubtful types (.named i) t
  | empty {vs : List (RStr × Variant)} : Doubtful types (.enum vs) (.arr [])
  | number {vs : List (RStr × Variant)} (n : Int) (rest : List Tree) : Doubtful types (.enum vs) (.arr (.int n :: rest))
  | bare {vs : List (RStr × Variant)} {i : Nat} {name : RStr} {w : Variant} {tag : Tree} (decl : vs[i]? = some (name, w))
      (data : w ≠ .unit) (called : tagNamed name tag) : Doubtful types (.enum vs) (.arr [tag])
  -- and at greater depth
  | named {i : Nat} {ty : Ty} {t : Tree} (decl : types[i]? = some ty) (of : Doubtful types ty t) : Doubtful types (.named i) t
  | some {ty : Ty} {t : Tree} (there : t ≠ .null) (of : Doubtful types ty t) : Doubtful types (.option ty) t
  | newtypeStruct {ty : Ty} {t : Tree} {rest : List Tree} (of : Doubtful types ty t) :
      Doubtful types (.newtypeStruct ty) (.arr (t :: rest))
  | seq {ty : Ty} {ts : List Tree} {i : Nat} {t : Tree} (at_ : ts[i]? = some t) (of : Doubtful types ty t) :
      Doubtful types (.seq ty) (.arr ts)
  | tuple {tys : List Ty} {ts : List Tree} {i : Nat} {ty : Ty} {t : Tree} (ty_ : tys[i]? = some ty) (at_ : ts[i]? = some t)
      (of : Doubtful types ty t) : Doubtful types (.tuple tys) (.arr ts)
  | map {ty : Ty} {kvs : List (List UInt8 × Tree)} {e : List UInt8 × Tree} (mem : e ∈ kvs) (of : Doubtful types ty e.2) :
      Doubtful types (.map ty) (.dict kvs)
  | field {fs : List (RStr × Ty)} {kvs : List (List UInt8 × Tree)} {f : RStr × Ty} {t : Tree} (known : f ∈ fs)
      (mem : (f.1.bytes, t) ∈ kvs) (of : Doubtful types f.2 t) : Doubtful types (.struct fs) (.dict kvs)
  | newtypeVariant {vs : List (RStr × Variant)} {i : Nat} {name : RStr} {ty : Ty} {tag t : Tree} {rest : List Tree}
      (decl : vs[i]? = some (name, .newtype ty)) (called : tagNamed name tag) (of : Doubtful types ty t) :
      Doubtful types (.enum vs) (.arr (tag :: t :: rest))
  | tupleVariant {vs : List (RStr × Variant)} {i : Nat} {name : RStr} {tys : List Ty} {tag : Tree} {ts rest : List Tree}
      (decl : vs[i]? = some (name, .tuple tys)) (called : tagNamed name tag) (of : Doubtful types (.tuple tys) (.arr ts)) :
      Doubtful types (.enum vs) (.arr (tag :: .arr ts :: rest))
  | structVariant {vs : List (RStr × Variant)} {i : Nat} {name : RStr} {fs : List (RStr × Ty)} {tag : Tree}
      {kvs : List (List UInt8 × Tree)} {rest : List Tree} (decl : vs[i]? = some (name, .struct fs)) (called : tagNamed name tag)
      (of : Doubtful types (.struct fs) (.dict kvs)) : Doubtful types (.enum vs) (.arr (tag :: .dict kvs :: rest))

end Fleece
