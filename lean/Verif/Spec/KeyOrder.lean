import Verif.Model.Encoder

/-!
# Specification: the order of dict keys

Shared keys first, by their number; then strings, in the lexicographic order of their bytes (Lean's order on lists).
-/

namespace Fleece

/-- The order. -/
def Key.Lt : Key → Key → Prop
  | .shared a, .shared b => a < b
  | .shared _, .string _ => True
  | .string _, .shared _ => False
  | .string a, .string b => a < b

/-- `o` is the outcome of comparing `a` with `b`. -/
def Key.Compares (a b : Key) : Ordering → Prop
  | .lt => Key.Lt a b
  | .eq => a = b
  | .gt => Key.Lt b a

/-- The key a `DictKey` stands for. -/
def DictKey.key : DictKey → Key
  | .inline s => .string s.str
  | .shared c => .shared c
  | .pointer k _ => .string k

/-- The value `v`, sitting in a key slot of the given width, holds the key `k`. -/
inductive KeyValue (m : Mem) (wide : Bool) (v : Val) : Key → Prop where
  | short {c : Nat} (ht : v.type m = .ok .short) (hv : v.getShort m = .ok c) : KeyValue m wide v (.shared c)
  | inline {s : List UInt8} (ht : v.type m = .ok .string) (hs : v.toStr m = .ok s) : KeyValue m wide v (.string s)
  | pointer {s : List UInt8} {tgt : Val} (ht : v.type m = .ok .pointer) (hd : derefUnchecked m wide v = .ok tgt)
      (hs : tgt.toStr m = .ok s) (hne : s ≠ []) : KeyValue m wide v (.string s)

end Fleece
