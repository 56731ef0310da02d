import Verif.Spec.Number
import Verif.Spec.Bytes
import Verif.Spec.Tree
import Verif.Spec.KeyOrder

/-!
# Specification: the format

Which bytes are which document, whoever wrote them. In the words of the format's definition:

    0000iiii iiiiiiii      number of 12 bits                      0100cccc ...   string (c bytes; c = 15: a varint follows)
    0001uccc ...           number of c + 1 bytes (u: unsigned)    0101cccc ...   data (likewise)
    00100d-- -------- ...  float (d: to be read as a double)      0110wccc ...   array (11 bits; 2047: a varint follows;
    00101--- -------- ...  double                                                w: slots of four bytes, not two)
    0011ss00 --------      null, false, true, undefined           0111wccc ...   dict (likewise)
    10oooooo ...           pointer back, in units of two bytes (14 bits, or 30 in a wide slot)

A document ends with a value of two bytes, or with a pointer to its value, or with a pointer to a wide pointer to it.
Not described: pointers out of the document, pointers to pointers elsewhere than at the end, varints longer than needed and
the 15-byte form of the count for strings of 2^63 bytes.
-/

namespace Fleece.Format
open Spec

/-- What the meaning of the bytes depends on: the conversion of floats, the shared keys, whether signed numbers of fewer than
eight bytes may be negative, and which texts may be keys in full. -/
structure Reading where
  F : FloatOps
  scope : Option SharedKeys
  neg : Prop
  plain : List UInt8 → Prop

/-- The bytes are at position `p`. -/
def Here (data : List UInt8) (p : Nat) (bs : List UInt8) : Prop := bs <+: data.drop p

/-- The number whose digits to base 256 are given, the most significant first. -/
def bigEndian (bs : List UInt8) : Nat := littleEndian bs.reverse

/-- The bytes of a slot. -/
def width (w : Bool) : Nat := if w then 4 else 2

/-- The length and then the bytes of a string or of data. -/
inductive Counted (tag : Nat) (s : List UInt8) : List UInt8 → Prop where
  | short {b : UInt8} {pad : List UInt8} (len : s.length < 15) (h : b.toNat = tag * 16 + s.length) :
      Counted tag s (b :: (s ++ pad))
  | long {b : UInt8} {pad : List UInt8} (len : s.length < 2 ^ 63) (h : b.toNat = tag * 16 + 15) :
      Counted tag s (b :: (leb128 s.length ++ s ++ pad))

/-- The bytes (at least two; those at the end may be padding) are the value `t`, which is not a collection. `neg`: signed
numbers of fewer than eight bytes may be negative. -/
inductive Scalar (F : FloatOps) (neg : Prop) : List UInt8 → Tree → Prop where
  | null {x : UInt8} {pad : List UInt8} : Scalar F neg (0x30 :: x :: pad) .null
  | false {x : UInt8} {pad : List UInt8} : Scalar F neg (0x34 :: x :: pad) (.bool false)
  | true {x : UInt8} {pad : List UInt8} : Scalar F neg (0x38 :: x :: pad) (.bool true)
  | undefined {x : UInt8} {pad : List UInt8} : Scalar F neg (0x3C :: x :: pad) .undefined
  | int {bs : List UInt8} {z : Int} (two : 2 ≤ bs.length) (h : Stores bs 0 z) (sign : Narrow bs 0 → z < 0 → neg) :
      Scalar F neg bs (.int z)
  | float {b x : UInt8} {d pad : List UInt8} (tag : b.toNat / 8 = 4) (len : d.length = 4) :
      Scalar F neg (b :: x :: (d ++ pad)) (.float (F.widen (UInt32.ofNat (littleEndian d))))
  | double {b x : UInt8} {d pad : List UInt8} (tag : b.toNat / 8 = 5) (len : d.length = 8) :
      Scalar F neg (b :: x :: (d ++ pad)) (.float (UInt64.ofNat (littleEndian d)))
  | str {s bs : List UInt8} (two : 2 ≤ bs.length) (utf8 : validUtf8 s = Bool.true) (h : Counted 4 s bs) : Scalar F neg bs (.str s)
  | data {s bs : List UInt8} (two : 2 ≤ bs.length) (h : Counted 5 s bs) : Scalar F neg bs (.data s)

/-- There is a pointer at `q`, in a slot of the given width, and it leads to `p`. -/
def Points (data : List UInt8) (w : Bool) (q p : Nat) : Prop :=
  ∃ bs off, Here data q bs ∧ bs.length = width w ∧ bigEndian bs = 2 ^ (8 * width w - 1) + off ∧
    off < 2 ^ (8 * width w - 2) ∧ p + 2 * off = q

/-- The first two bytes of a collection (`kind` is 6 for arrays and 7 for dicts) and, if the count does not fit, the rest of its
header. -/
def header (kind n : Nat) (w : Bool) : List UInt8 :=
  [UInt8.ofNat (kind * 16 + (if w then 8 else 0) + min n 2047 / 256), UInt8.ofNat (min n 2047 % 256)] ++
    if n < 2047 then [] else leb128 n

/-- Where the slots begin: the header is padded to an even size. -/
def headerSize (n : Nat) : Nat := if n < 2047 then 2 else ((leb128 n).length + 1) / 2 * 2 + 2

/-- The slot at `q` holds the key `k`. -/
inductive KeySlot (r : Reading) (data : List UInt8) (w : Bool) (q : Nat) : Key → Prop where
  | shared {b0 b1 : UInt8} {pad : List UInt8} (here : Here data q (b0 :: b1 :: pad)) (len : 2 + pad.length = width w)
      (code : b0.toNat < 8) : KeySlot r data w q (.shared (b0.toNat * 256 + b1.toNat))
  | inline {s bs : List UInt8} (here : Here data q bs) (len : bs.length = width w) (h : Scalar r.F r.neg bs (.str s)) :
      KeySlot r data w q (.string s)
  | pointer {p : Nat} {s bs : List UInt8} (to : Points data w q p) (here : Here data p bs) (le : p + bs.length ≤ q)
      (h : Scalar r.F r.neg bs (.str s)) : KeySlot r data w q (.string s)

/-- The text of a key. -/
def Named (r : Reading) : Key → List UInt8 → Prop
  | .shared c, s => ∃ sk n, r.scope = some sk ∧ sk.entries[c]? = some (s, n)
  | .string k, s => k = s ∧ r.plain s

/-- `Value r data none p e t`: the bytes from `p` to `e` are the value `t`.
`Value r data (some w) q _ t`: the slot at `q`, of width `w`, holds it or points to it. The only collections that a slot can
hold are the empty ones. -/
inductive Value (r : Reading) (data : List UInt8) : Option Bool → Nat → Nat → Tree → Prop where
  | scalar {p : Nat} {bs : List UInt8} {t : Tree} (here : Here data p bs) (h : Scalar r.F r.neg bs t) :
      Value r data none p (p + bs.length) t
  | inline {w : Bool} {q : Nat} {bs : List UInt8} {t : Tree} (here : Here data q bs) (len : bs.length = width w)
      (h : Scalar r.F r.neg bs t) : Value r data (some w) q (q + width w) t
  | pointer {w : Bool} {q p e : Nat} {t : Tree} (to : Points data w q p) (le : e ≤ q) (tgt : Value r data none p e t) :
      Value r data (some w) q (q + width w) t
  | empty {w : Bool} {q e : Nat} {t : Tree} (no : t = .arr [] ∨ t = .dict []) (le : e ≤ q + width w)
      (fits : q + width w ≤ data.length) (tgt : Value r data none q e t) : Value r data (some w) q (q + width w) t
  | arr {p : Nat} {w : Bool} {xs : List Tree} (here : Here data p (header 6 xs.length w)) (small : xs.length < 2 ^ 32)
      (fits : p + headerSize xs.length + xs.length * width w ≤ data.length)
      (each : ∀ (i : Nat) (t : Tree), xs[i]? = some t → Value r data (some w) (p + headerSize xs.length + i * width w)
        (p + headerSize xs.length + i * width w + width w) t) :
      Value r data none p (p + headerSize xs.length + xs.length * width w) (.arr xs)
  | dict {p : Nat} {w : Bool} {ks : List Key} {kvs : List (List UInt8 × Tree)} (here : Here data p (header 7 kvs.length w))
      (small : kvs.length < 2 ^ 32) (fits : p + headerSize kvs.length + kvs.length * 2 * width w ≤ data.length)
      (len : ks.length = kvs.length)
      (keys : ∀ (i : Nat) (k : Key), ks[i]? = some k → KeySlot r data w (p + headerSize kvs.length + 2 * i * width w) k)
      (names : ∀ (i : Nat) (k : Key) (s : List UInt8) (t : Tree), ks[i]? = some k → kvs[i]? = some (s, t) → Named r k s)
      (sorted : ks.Pairwise Key.Lt)
      (vals : ∀ (i : Nat) (s : List UInt8) (t : Tree), kvs[i]? = some (s, t) →
        Value r data (some w) (p + headerSize kvs.length + (2 * i + 1) * width w)
          (p + headerSize kvs.length + (2 * i + 1) * width w + width w) t) :
      Value r data none p (p + headerSize kvs.length + kvs.length * 2 * width w) (.dict kvs)

/-- The bytes are the document `t`. -/
inductive Document (r : Reading) (data : List UInt8) : Tree → Prop where
  | alone {e : Nat} {t : Tree} (two : data.length = 2) (h : Value r data none 0 e t) : Document r data t
  | narrow {p e q : Nat} {t : Tree} (even : data.length % 2 = 0) (len : data.length = q + 2) (to : Points data Bool.false q p)
      (le : e ≤ q) (h : Value r data none p e t) : Document r data t
  | wide {p e q q' : Nat} {t : Tree} (even : data.length % 2 = 0) (len : data.length = q + 2)
      (first : Points data Bool.false q q') (room : q' + 4 ≤ q) (to : Points data Bool.true q' p) (le : e ≤ q')
      (h : Value r data none p e t) : Document r data t

end Fleece.Format
