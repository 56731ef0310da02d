import Verif.Spec.Doc

/-!
# Specification: documents whose collections have a width to spare

The encoder chooses between slots of two and of four bytes before it knows where the slots will be, so that a collection
whose contents take about 16 KiB may get the wrong width (C21). `Tree.Roomy` says of every collection in a document that
it is far from that: by bounds on the sizes of its contents that need no knowledge of how anything is encoded.
-/

namespace Fleece

/-- The longest distance a slot of two bytes can bridge. -/
def narrowReach : Nat := 0x3fff

/-- Strings and data of at most one byte, which a collection with slots of two bytes does not keep (C20). -/
def Tree.Tiny : Tree → Prop
  | .str s => s.length ≤ 1
  | .data d => d.length ≤ 1
  | _ => False

/-- What a key takes at least outside the dict: its bytes, unless it may be a shared key or is short. -/
def keyLow (shared : Bool) (k : List UInt8) : Nat := if shared ∨ k.length ≤ 1 then 0 else k.length

mutual
/-- What a value takes at least outside the collection it is in. -/
def Tree.low (shared : Bool) : Tree → Nat
  | .str s => if s.length ≤ 1 then 0 else s.length
  | .data d => if d.length ≤ 1 then 0 else d.length
  | .arr xs => 2 + 2 * xs.length + Tree.lows shared xs
  | .dict kvs => 2 + 4 * kvs.length + Tree.entryLows shared kvs
  | _ => 0

def Tree.lows (shared : Bool) : List Tree → Nat
  | [] => 0
  | t :: ts => t.low shared + Tree.lows shared ts

def Tree.entryLows (shared : Bool) : List (List UInt8 × Tree) → Nat
  | [] => 0
  | e :: es => keyLow shared e.1 + e.2.low shared + Tree.entryLows shared es
end

mutual
/-- What a value takes at most outside the collection it is in: nothing if it is a constant or a small number. -/
def Tree.high : Tree → Nat
  | .null | .undefined | .bool _ => 0
  | .int i => if -2048 ≤ i ∧ i ≤ 2047 then 0 else 12
  | .float _ => 12
  | .str s => if s.length ≤ 1 then 0 else 12 + s.length
  | .data d => if d.length ≤ 1 then 0 else 12 + d.length
  | .arr xs => 12 + 4 * xs.length + Tree.highs xs
  | .dict kvs => 12 + 8 * kvs.length + Tree.entryHighs kvs

def Tree.highs : List Tree → Nat
  | [] => 0
  | t :: ts => t.high + Tree.highs ts

def Tree.entryHighs : List (List UInt8 × Tree) → Nat
  | [] => 0
  | e :: es => 12 + e.1.length + e.2.high + Tree.entryHighs es
end

/-- Values that are never in a slot. -/
def Tree.Apart : Tree → Prop
  | .str s => 2 ≤ s.length
  | .data d => 2 ≤ d.length
  | .arr _ | .dict _ => True
  | _ => False

/-- What lies at least between the place a slot refers to and the end of the value: of a collection, its own slots, since
its elements lie before them. -/
def Tree.rear (shared : Bool) : Tree → Nat
  | .arr xs => 2 + 2 * xs.length
  | .dict kvs => 2 + 4 * kvs.length
  | t => t.low shared

/-- Small enough for slots of two bytes: nothing refers to anything, or all contents and slots together are in reach. -/
def arrCompact (xs : List Tree) : Prop := Tree.highs xs = 0 ∨ 12 + 2 * xs.length + Tree.highs xs ≤ narrowReach

def dictCompact (kvs : List (List UInt8 × Tree)) : Prop := 12 + 4 * kvs.length + Tree.entryHighs kvs ≤ narrowReach

/-- Large enough for slots of four bytes: some element is out of reach even from where the collection begins. -/
def arrStretched (shared : Bool) (xs : List Tree) : Prop :=
  ∃ (i : Nat) (x : Tree), xs[i]? = some x ∧ x.Apart ∧ narrowReach < x.rear shared + Tree.lows shared (xs.drop (i + 1))

/-- The same for the values of a dict; also if it has a key that is not shared and lies far from the beginning of the
document (the code compares that distance). -/
def dictStretched (shared : Bool) (kvs : List (List UInt8 × Tree)) : Prop :=
  (∃ (i : Nat) (e : List UInt8 × Tree), kvs[i]? = some e ∧ e.2.Apart ∧
    narrowReach < e.2.rear shared + Tree.entryLows shared (kvs.drop (i + 1))) ∨
  (shared = false ∧ ∃ (i : Nat) (e : List UInt8 × Tree), kvs[i]? = some e ∧ 2 ≤ e.1.length ∧
    narrowReach < Tree.entryLows shared (kvs.take i))

/-- Every collection is either clearly small, and then without strings, data and keys of fewer than two bytes, or clearly
large. -/
inductive Tree.Roomy (shared : Bool) : Tree → Prop where
  | leaf {t : Tree} (na : ∀ xs, t ≠ .arr xs) (nd : ∀ kvs, t ≠ .dict kvs) : Tree.Roomy shared t
  | arr {xs : List Tree} (width : arrStretched shared xs ∨ arrCompact xs ∧ ∀ x ∈ xs, ¬ x.Tiny)
      (of : ∀ x ∈ xs, Tree.Roomy shared x) : Tree.Roomy shared (.arr xs)
  | dict {kvs : List (List UInt8 × Tree)}
      (width : dictStretched shared kvs ∨ dictCompact kvs ∧ ∀ e ∈ kvs, 2 ≤ e.1.length ∧ ¬ e.2.Tiny)
      (of : ∀ e ∈ kvs, Tree.Roomy shared e.2) : Tree.Roomy shared (.dict kvs)

/-- Calls with scalars this version can write and keys it can store. -/
def Op.Sound (shared : Bool) : Op → Prop
  | .value x => x.Survives
  | .key k => k.bytes.length < 2 ^ 63 ∧ (shared = true → k.bytes.length ≠ 16)
  | .beginArray n => n * 4 < 2 ^ 63
  | _ => True

end Fleece
