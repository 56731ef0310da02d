import Verif.Spec.Doc

/-!
# Specification: what short strings and data turn into

In a narrow slot the bit that marks strings and data is lost. What is left of a short one is read as a number.
-/

namespace Fleece

/-- The number that a string or data of at most one byte turns into; everything else stays. -/
def Scalar.narrowed : Scalar → Scalar
  | .str s =>
    match s.bytes with
    | [] => .i16 0
    | [b] => .i16 (256 + Int16.ofNat b.toNat)
    | _ => .str s
  | .data [] => .i16 0
  | x => x

/-- The calls with the numbers instead. -/
def Op.narrowed : Op → Op
  | .value x => .value x.narrowed
  | op => op

/-- Calls as in `Op.Plain`, but with strings of any length, and data of any length other than one. -/
def Op.Narrowable (shared : Bool) : Op → Prop
  | .value x => x.Survives ∧ ∀ d, x = .data d → d.length ≠ 1
  | .key k => 2 ≤ k.bytes.length ∧ k.bytes.length < 2 ^ 63 ∧ (shared = true → k.bytes.length ≠ 16)
  | _ => True

/-- Calls as in `Op.Plain`, but with strings and data of any length. -/
def Op.Writable (shared : Bool) : Op → Prop
  | .value x => x.Survives
  | .key k => 2 ≤ k.bytes.length ∧ k.bytes.length < 2 ^ 63 ∧ (shared = true → k.bytes.length ≠ 16)
  | _ => True

/-- Does the call write a string or data of at most one byte? -/
def Op.TinyValue : Op → Prop
  | .value x => x.Tiny
  | _ => False

/-! ## Documents -/

mutual
/-- What is left of a document written into narrow slots without shared keys. A string or data of at most one byte is a
number. A dict ends where the first key of at most one byte would come, so the entries left are those whose keys sort
before all such keys. -/
def Tree.lossy : Tree → Tree
  | .str [] => .int 0
  | .str [b] => .int (256 + b.toNat)
  | .data [] => .int 0
  | .arr xs => .arr (Tree.lossyAll xs)
  | .dict kvs => .dict ((Tree.lossyOf kvs).filter fun kv => kvs.all fun l => 2 ≤ l.1.length || decide (kv.1 < l.1))
  | t => t
/-- Of several. -/
def Tree.lossyAll : List Tree → List Tree
  | [] => []
  | x :: xs => x.lossy :: Tree.lossyAll xs
/-- Of the values of a dict. -/
def Tree.lossyOf : List (List UInt8 × Tree) → List (List UInt8 × Tree)
  | [] => []
  | kv :: kvs => (kv.1, kv.2.lossy) :: Tree.lossyOf kvs
end

/-! ## Documents, with shared keys -/

/-- Which keys an encoder stores as codes, and what a reader takes a code for. -/
structure KeyView where
  coded : List UInt8 → Bool
  look : Nat → Option (List UInt8)

/-- An encoder with shared keys, if `shared`, that do not run out, and a reader with the shared keys `scope`. The keys stored
as codes have two to 16 bytes, and only letters, digits, `_` and `-`. -/
def KeyView.of (U : CharTable) (shared : Bool) (scope : Option SharedKeys) : KeyView where
  coded k := shared && decide (2 ≤ k.length) && decide (k.length ≤ 16) && SharedKeys.canEncode U k
  look c := scope.bind fun sk => sk.decode c

/-- What a key in a narrow dict is read as. A key of at most one byte turns into a number, which is taken for a code. Of a
key stored as a code the first 15 bytes are known. -/
def KeyView.read (V : KeyView) : List UInt8 → Option (List UInt8)
  | [] => V.look 0
  | [b] => V.look (256 + b.toNat)
  | a :: b :: k => some (if V.coded (a :: b :: k) then (a :: b :: k).take 15 else a :: b :: k)

/-- The order of keys in a dict: codes first. -/
def KeyView.first (V : KeyView) (k l : List UInt8) : Bool := V.coded k || decide (k < l)

mutual
/-- What is left of a document written into narrow slots. Values are as in `Tree.lossy`. Keys are read as `KeyView.read`
says, and a dict ends where the first key would come that is not read as anything. -/
def Tree.lossyIn (V : KeyView) : Tree → Tree
  | .str [] => .int 0
  | .str [b] => .int (256 + b.toNat)
  | .data [] => .int 0
  | .arr xs => .arr (Tree.lossyInAll V xs)
  | .dict kvs => .dict (((Tree.lossyInOf V kvs).filter fun kv => kvs.all fun l => (V.read l.1).isSome || V.first kv.1 l.1).map
      fun kv => ((V.read kv.1).getD kv.1, kv.2))
  | t => t
/-- Of several. -/
def Tree.lossyInAll (V : KeyView) : List Tree → List Tree
  | [] => []
  | x :: xs => x.lossyIn V :: Tree.lossyInAll V xs
/-- Of the values of a dict. -/
def Tree.lossyInOf (V : KeyView) : List (List UInt8 × Tree) → List (List UInt8 × Tree)
  | [] => []
  | kv :: kvs => (kv.1, kv.2.lossyIn V) :: Tree.lossyInOf V kvs
end

/-- Some value in the document, or the document itself, satisfies `p`. -/
inductive Tree.Has (p : Tree → Prop) : Tree → Prop where
  | here {t : Tree} (h : p t) : Has p t
  | elem {xs : List Tree} {x : Tree} (hx : x ∈ xs) (h : Has p x) : Has p (.arr xs)
  | entry {kvs : List (List UInt8 × Tree)} {kv : List UInt8 × Tree} (hx : kv ∈ kvs) (h : Has p kv.2) : Has p (.dict kvs)

/-- A value that two-byte slots cannot hold: a string or data of at most one byte, or a dict with such a key. -/
def Tree.TinyNode : Tree → Prop
  | .str s | .data s => s.length < 2
  | .dict kvs => ∃ kv ∈ kvs, kv.1.length < 2
  | _ => False

/-- A value that two-byte slots or, if `shared`, shared keys cannot hold: a string or data of at most one byte, or a dict with
a key of at most one byte, or of 16 bytes if it is stored as a code. -/
def Tree.LostNode (U : CharTable) (shared : Bool) : Tree → Prop
  | .str s | .data s => s.length < 2
  | .dict kvs => ∃ kv ∈ kvs, kv.1.length < 2 ∨ shared = true ∧ kv.1.length = 16 ∧ SharedKeys.canEncode U kv.1 = true
  | _ => False

/-- Every key of the table has two to 15 bytes. -/
def SharedKeys.Middling (sk : SharedKeys) : Prop := ∀ e ∈ sk.entries, 2 ≤ e.1.length ∧ e.1.length ≤ 15

/-- Data of one byte. -/
def Tree.ByteNode : Tree → Prop
  | .data d => d.length = 1
  | _ => False

/-- Calls with scalars the code can write, and keys, strings and data of any length. -/
def Op.Possible : Op → Prop
  | .value x => x.Survives
  | .key k => k.bytes.length < 2 ^ 63
  | _ => True

end Fleece
