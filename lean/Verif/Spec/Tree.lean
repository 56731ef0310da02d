import Verif.Model.Dict

/-!
# Specification vocabulary: documents

`Tree` is what a user means by a document. `readTree` is a client program: a complete recursive traversal written
only with the public reader API of the model (`value_type`, the `to_*` conversions, `Array::iter`, `Dict::iter`).
-/

namespace Fleece

/-- A document: constants, numbers, floats (bit pattern of the `f64`), strings, data, arrays, dicts. -/
inductive Tree where
  | null
  | undefined
  | bool (b : Bool)
  | int (i : Int)
  | float (bits : UInt64)
  | str (s : List UInt8)
  | data (d : List UInt8)
  | arr (xs : List Tree)
  | dict (kvs : List (List UInt8 × Tree))

/-- Run an array iterator to its end, applying `f` to every value. -/
def collect {α : Type} (m : Mem) (f : Val → R α) : Nat → Iter → R (List α)
  | 0, _ => .diverge
  | fuel + 1, it => do
    let (x, it') ← it.step m
    match x with
    | none => pure []
    | some x => do
      let a ← f x
      let rest ← collect m f fuel it'
      pure (a :: rest)

/-- Run a dict iterator to its end, applying `f` to every value. -/
def collectDict {α : Type} (m : Mem) (scope : Option SharedKeys) (f : Val → R α) :
    Nat → Iter → R (List (List UInt8 × α))
  | 0, _ => .diverge
  | fuel + 1, it => do
    let (x, it') ← it.dictStep m scope
    match x with
    | none => pure []
    | some (k, x) => do
      let a ← f x
      let rest ← collectDict m scope f fuel it'
      pure ((k, a) :: rest)

/-- Complete traversal of a value. `fuel` bounds the nesting depth followed. -/
def readTree (m : Mem) (F : FloatOps) (scope : Option SharedKeys) : Nat → Val → R Tree
  | 0, _ => .diverge
  | fuel + 1, v => do
    match ← v.type m with
    | .null => pure .null
    | .undefined => pure .undefined
    | .false => pure (.bool Bool.false)
    | .true => pure (.bool Bool.true)
    | .short | .int => do let i ← v.toInt m F; pure (.int i)
    | .unsignedInt => do let n ← v.toUnsignedInt m F; pure (.int n)
    | .float | .double32 | .double64 => do let d ← v.toDouble m F; pure (.float d)
    | .string => do let s ← v.toStr m; pure (.str s)
    | .data => do let d ← v.toData m; pure (.data d)
    | .array => do
      let it ← v.iter m
      let xs ← collect m (readTree m F scope fuel) (it.len + 1) it
      pure (.arr xs)
    | .dict => do
      let it ← v.dictIter m
      let kvs ← collectDict m scope (readTree m F scope fuel) (it.len + 1) it
      pure (.dict kvs)
    | .pointer => .panic

/-- A state of the iterator of the collection `a`. -/
inductive IterState (m : Mem) (a : Val) : Iter → Prop where
  | start {it : Iter} : a.iter m = .ok it → IterState m a it
  | next {it it' : Iter} {x : Option Val} : IterState m a it → it.step m = .ok (x, it') → IterState m a it'

/-- A state of the dict iterator of `d`. -/
inductive DictIterState (m : Mem) (scope : Option SharedKeys) (d : Val) : Iter → Prop where
  | start {it : Iter} : d.dictIter m = .ok it → DictIterState m scope d it
  | next {it it' : Iter} {x : Option (List UInt8 × Val)} :
      DictIterState m scope d it → it.dictStep m scope = .ok (x, it') → DictIterState m scope d it'

/-- `Child m scope a x`: the API call on `a` hands out `x`: indexing below `len`, array iteration, dict
iteration, `Dict::first` (key and value), lookup with the scope's or with given shared keys. -/
inductive Child (m : Mem) (scope : Option SharedKeys) (a x : Val) : Prop where
  | index {n i : Nat} : a.asArray m = .ok (some a) → a.arrayLen m = .ok n → i < n →
      a.get m i = .ok (some x) → Child m scope a x
  | item {it it' : Iter} : a.asArray m = .ok (some a) → IterState m a it →
      it.step m = .ok (some x, it') → Child m scope a x
  | entry {k : List UInt8} {it it' : Iter} : a.asDict m = .ok (some a) → DictIterState m scope a it →
      it.dictStep m scope = .ok (some (k, x), it') → Child m scope a x
  | firstKey {y : Val} : a.asDict m = .ok (some a) → a.dictFirst m = .ok (some (x, y)) → Child m scope a x
  | firstValue {k : Val} : a.asDict m = .ok (some a) → a.dictFirst m = .ok (some (k, x)) → Child m scope a x
  | lookup {k : List UInt8} : a.asDict m = .ok (some a) → a.dictGet m scope k = .ok (some x) →
      Child m scope a x
  | lookupWith {k : List UInt8} {sk : SharedKeys} : a.asDict m = .ok (some a) →
      a.dictGetWith m sk k = .ok (some x) → Child m scope a x

/-- Values a user can get hold of, starting from `root`. -/
inductive Reach (m : Mem) (scope : Option SharedKeys) (root : Val) : Val → Prop where
  | root : Reach m scope root root
  | child {a x : Val} : Reach m scope root a → Child m scope a x → Reach m scope root x

/-- `P` holds of the outcome of every reader call that can be made on `v`: every scalar accessor; if `v` is an
array its length, iterator, every iterator step and every index below `len`; if it is a dict its length, first
entry, iterator, every step of it, and every lookup. -/
structure EveryCall (P : {α : Type} → R α → Prop) (m : Mem) (F : FloatOps) (scope : Option SharedKeys)
    (v : Val) : Prop where
  type : P (v.type m)
  toBool : P (v.toBool m F)
  toInt : P (v.toInt m F)
  toUnsignedInt : P (v.toUnsignedInt m F)
  toShort : P (v.toShort m F)
  toUnsignedShort : P (v.toUnsignedShort m F)
  toDouble : P (v.toDouble m F)
  toFloat : P (v.toFloat m F)
  toData : P (v.toData m)
  toStr : P (v.toStr m)
  asArray : P (v.asArray m)
  asDict : P (v.asDict m)
  array : v.asArray m = .ok (some v) → P (v.arrayLen m) ∧ P (v.iter m) ∧
    (∀ it, IterState m v it → P (it.step m)) ∧ ∀ n i, v.arrayLen m = .ok n → i < n → P (v.get m i)
  dict : v.asDict m = .ok (some v) → P (v.dictLen m) ∧ P (v.dictFirst m) ∧ P (v.dictIter m) ∧
    (∀ it, DictIterState m scope v it → P (it.dictStep m scope)) ∧
    ∀ k, P (v.dictGet m scope k) ∧ P (v.containsKey m scope k) ∧ ∀ sk, P (v.dictGetWith m sk k)

end Fleece
