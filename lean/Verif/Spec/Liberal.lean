import Verif.Spec.Format
import Verif.Spec.Groups

/-!
# Specification: what any bytes say to the reader

`Spec.Format` describes the documents that an encoder may write. Here: what the reader makes of any bytes, said in the terms of
the format and not of the code. Everything that an encoder may not write, and the reader nevertheless takes for something, is an
`Oddity`; every rule that is not one of the format asks for one. Beyond `Spec.Format`, without being an oddity: pointers to
pointers, counts in more bytes than needed, keys in any order.
-/

namespace Fleece.Liberal
open Spec Format

inductive Oddity where
  /-- A negative number of fewer than eight bytes: it becomes positive. -/
  | negative
  /-- A constant with other bits set than those that tell which it is: it becomes null. -/
  | constant
  /-- A string that is not UTF-8: it becomes empty. -/
  | text
  /-- A count that does not end, or that is 2^64 or more, or in more than ten bytes, or a dict of 2^63 entries. -/
  | count
  /-- A key that is neither a text nor a code: it becomes the empty text. -/
  | key
  /-- A code without a text: the dict ends there. -/
  | unnamed
  /-- A pointer out of the document: it becomes one inside. -/
  | external
deriving DecidableEq

/-- What the meaning of the bytes depends on: the conversion of floats, the shared keys, the build profile, and the oddities
that are put up with. -/
structure Reader where
  F : FloatOps
  scope : Option SharedKeys
  dbg : Bool
  odd : Oddity → Prop

/-- The bytes from `p` up to `e`. -/
def between (data : List UInt8) (p e : Nat) : List UInt8 := (data.drop p).take (e - p)

/-- The bytes begin with a count: how many bytes it takes, and the count. -/
inductive Size (r : Reader) (bs : List UInt8) : Nat → Nat → Prop where
  | plain {g : List UInt8} {n : Nat} (h : Groups g n) (here : g <+: bs) (len : g.length ≤ 10) (fits : n < 2 ^ 64) :
      Size r bs g.length n
  | large {g : List UInt8} {n : Nat} (odd : r.odd .count) (h : Groups g n) (here : g <+: bs) (len : g.length ≤ 10)
      (big : 2 ^ 64 ≤ n) : Size r bs g.length (n % 2 ^ 64)
  | eleven {g : List UInt8} {n k : Nat} (odd : r.odd .count) (unchecked : r.dbg = false) (h : Groups g n) (here : g <+: bs)
      (len : g.length = 11) (fits : k < 2 ^ 64) : Size r bs 11 k

/-- The bytes do not begin with a count. -/
inductive NoSize (r : Reader) (bs : List UInt8) : Prop where
  | endless (odd : r.odd .count) (h : ∀ b ∈ bs, 128 ≤ b.toNat) (few : r.dbg = true → bs.length ≤ 10) : NoSize r bs
  | long {g : List UInt8} {n : Nat} (odd : r.odd .count) (unchecked : r.dbg = false) (h : Groups g n) (here : g <+: bs)
      (len : 11 < g.length) : NoSize r bs

/-- The bytes from `p`, up to `e` at most, are a count and then `s`. -/
inductive Counted (r : Reader) (data : List UInt8) (tag p e : Nat) : List UInt8 → Prop where
  | short {b : UInt8} {s : List UInt8} (h : data[p]? = some b) (len : s.length < 15) (is : b.toNat = tag * 16 + s.length)
      (here : Here data (p + 1) s) (room : p + 1 + s.length ≤ e) : Counted r data tag p e s
  | long {b : UInt8} {s : List UInt8} {k : Nat} (h : data[p]? = some b) (is : b.toNat = tag * 16 + 15)
      (size : Size r (between data (p + 1) e) k s.length) (here : Here data (p + 1 + k) s) (room : p + 1 + k + s.length ≤ e) :
      Counted r data tag p e s
  | none {b : UInt8} (h : data[p]? = some b) (is : b.toNat = tag * 16 + 15) (no : NoSize r (between data (p + 1) e)) :
      Counted r data tag p e []

/-- The bytes from `p`, up to `e` at most, are the value `t`, which is not a collection. -/
inductive Scalar (r : Reader) (data : List UInt8) (p e : Nat) : Tree → Prop where
  | null (h : data[p]? = some 0x30) : Scalar r data p e .null
  | false (h : data[p]? = some 0x34) : Scalar r data p e (.bool false)
  | true (h : data[p]? = some 0x38) : Scalar r data p e (.bool true)
  | undefined (h : data[p]? = some 0x3C) : Scalar r data p e .undefined
  | constant {b : UInt8} (odd : r.odd .constant) (h : data[p]? = some b) (tag : b.toNat / 16 = 3) (bits : b.toNat % 4 ≠ 0) :
      Scalar r data p e .null
  | int {z : Int} (h : Stores data p z) (sign : Narrow data p → 0 ≤ z) : Scalar r data p e (.int z)
  | negative {z : Int} {b : UInt8} (odd : r.odd .negative) (h : Stores data p z) (first : data[p]? = some b)
      (narrow : Narrow data p) (neg : z < 0) : Scalar r data p e (.int (z + 256 ^ (b.toNat - 15)))
  | float {b : UInt8} {d : List UInt8} (h : data[p]? = some b) (tag : b.toNat / 8 = 4) (len : d.length = 4)
      (here : Here data (p + 2) d) (room : p + 6 ≤ e) :
      Scalar r data p e (.float (r.F.widen (UInt32.ofNat (littleEndian d))))
  | double {b : UInt8} {d : List UInt8} (h : data[p]? = some b) (tag : b.toNat / 8 = 5) (len : d.length = 8)
      (here : Here data (p + 2) d) (room : p + 10 ≤ e) : Scalar r data p e (.float (UInt64.ofNat (littleEndian d)))
  | str {s : List UInt8} (h : Counted r data 4 p e s) (utf8 : validUtf8 s = Bool.true) : Scalar r data p e (.str s)
  | text {s : List UInt8} (odd : r.odd .text) (h : Counted r data 4 p e s) (bad : validUtf8 s = Bool.false) :
      Scalar r data p e (.str [])
  | data {s : List UInt8} (h : Counted r data 5 p e s) : Scalar r data p e (.data s)

/-- There is a pointer at `q`. -/
def IsPointer (data : List UInt8) (q : Nat) : Prop := ∃ b, data[q]? = some b ∧ 128 ≤ b.toNat

/-- The pointer at `q`, in a slot of the given width, leads back to `p`. -/
inductive Back (r : Reader) (data : List UInt8) (w : Bool) (q p : Nat) : Prop where
  | inside (h : Points data w q p) (lt : p < q)
  | external {bs : List UInt8} {off : Nat} (odd : r.odd .external) (here : Here data q bs) (len : bs.length = width w)
      (is : bigEndian bs = 3 * 2 ^ (8 * width w - 2) + off) (small : off < 2 ^ (8 * width w - 2)) (to : p + 2 * off = q)
      (lt : p < q)

/-- Following the pointer at `q`, and the wide pointers that it may lead to, one arrives at `p`; the last pointer is at `e`. -/
inductive Leads (r : Reader) (data : List UInt8) : Bool → Nat → Nat → Nat → Prop where
  | one {w : Bool} {q p : Nat} (h : Back r data w q p) (end_ : ¬ IsPointer data p) : Leads r data w q p q
  | more {w : Bool} {q p p' e : Nat} (h : Back r data w q p) (t : Leads r data Bool.true p p' e) : Leads r data w q p' e

/-- What the slot at `q` is about is at `p`, with room up to `e`. -/
inductive Slot (r : Reader) (data : List UInt8) (w : Bool) (q : Nat) : Nat → Nat → Prop where
  | inline (room : q + width w ≤ data.length) (no : ¬ IsPointer data q) : Slot r data w q q (q + width w)
  | pointer {p e : Nat} (room : q + width w ≤ data.length) (h : Leads r data w q p e) : Slot r data w q p e

/-- The header of a collection: `n` is the count, `size` where the slots begin. -/
inductive Header (r : Reader) (data : List UInt8) (kind p e : Nat) (w : Bool) : (n size : Nat) → Prop where
  | short {b0 b1 : UInt8} {c : Nat} (h0 : data[p]? = some b0) (h1 : data[p + 1]? = some b1)
      (is : b0.toNat = kind * 16 + (if w then 8 else 0) + c) (hc : c < 8) (small : c * 256 + b1.toNat < 2047) :
      Header r data kind p e w (c * 256 + b1.toNat) 2
  | long {b0 : UInt8} {n k : Nat} (h0 : data[p]? = some b0) (h1 : data[p + 1]? = some 255)
      (is : b0.toNat = kind * 16 + (if w then 8 else 0) + 7) (size : Size r (between data (p + 2) e) k n) :
      Header r data kind p e w n (2 + k + k % 2)
  | none {b0 : UInt8} (h0 : data[p]? = some b0) (h1 : data[p + 1]? = some 255)
      (is : b0.toNat = kind * 16 + (if w then 8 else 0) + 7) (no : NoSize r (between data (p + 2) e)) :
      Header r data kind p e w 0 2

/-- A dict that counts `n` entries has `pairs`. -/
inductive Pairs (r : Reader) (n : Nat) : Nat → Prop where
  | plain (h : n < 2 ^ 63) : Pairs r n n
  | large (odd : r.odd .count) (unchecked : r.dbg = false) (h : 2 ^ 63 ≤ n) : Pairs r n (n - 2 ^ 63)

/-- There is a code at `p`. -/
def Code (data : List UInt8) (p n : Nat) : Prop :=
  ∃ b0 b1 : UInt8, data[p]? = some b0 ∧ b0.toNat < 16 ∧ data[p + 1]? = some b1 ∧ n = b0.toNat * 256 + b1.toNat

/-- The code has a text. -/
def Text (r : Reader) (n : Nat) (s : List UInt8) : Prop := ∃ sk c, r.scope = some sk ∧ sk.entries[n]? = some (s, c)

/-- The bytes from `p` to `e` are a key with the text `s`. -/
inductive Named (r : Reader) (data : List UInt8) (p e : Nat) : List UInt8 → Prop where
  | str {s : List UInt8} (h : Scalar r data p e (.str s)) : Named r data p e s
  | code {n : Nat} {s : List UInt8} (h : Code data p n) (name : Text r n s) : Named r data p e s
  | other {b : UInt8} (odd : r.odd .key) (h : data[p]? = some b) (no : 16 ≤ b.toNat ∧ b.toNat < 128 ∧ b.toNat / 16 ≠ 4) :
      Named r data p e []

/-- The slot at `q` holds a key with the text `s`. -/
inductive KeySlot (r : Reader) (data : List UInt8) (w : Bool) (q : Nat) (s : List UInt8) : Prop where
  | mk {p e : Nat} (slot : Slot r data w q p e) (h : Named r data p e s)

/-- The slot at `q` holds a code that has no text; there is a slot after it. -/
inductive Nameless (r : Reader) (data : List UInt8) (w : Bool) (q : Nat) : Prop where
  | mk {p e n : Nat} (odd : r.odd .unnamed) (slot : Slot r data w q p e) (h : Code data p n) (no : ∀ s, ¬ Text r n s)
      (room : q + width w + width w ≤ data.length)

/-- `Value r data none p e t`: the bytes from `p`, up to `e` at most, are the value `t`.
`Value r data (some w) q e t`: the slot from `q` to `e`, of width `w`, holds it or points to it. -/
inductive Value (r : Reader) (data : List UInt8) : Option Bool → Nat → Nat → Tree → Prop where
  | scalar {p e : Nat} {t : Tree} (two : p + 2 ≤ e) (le : e ≤ data.length) (h : Scalar r data p e t) : Value r data none p e t
  | slot {w : Bool} {q p e : Nat} {t : Tree} (slot : Slot r data w q p e) (h : Value r data none p e t) :
      Value r data (some w) q (q + width w) t
  | arr {p e size : Nat} {w : Bool} {xs : List Tree} (two : p + 2 ≤ e) (le : e ≤ data.length)
      (head : Header r data 6 p e w xs.length size)
      (each : ∀ (i : Nat) (t : Tree), xs[i]? = some t →
        Value r data (some w) (p + size + i * width w) (p + size + i * width w + width w) t) :
      Value r data none p e (.arr xs)
  | dict {p e size n pairs : Nat} {w : Bool} {kvs : List (List UInt8 × Tree)} (two : p + 2 ≤ e) (le : e ≤ data.length)
      (head : Header r data 7 p e w n size) (count : Pairs r n pairs) (len : kvs.length ≤ pairs)
      (keys : ∀ (i : Nat) (s : List UInt8) (t : Tree), kvs[i]? = some (s, t) →
        KeySlot r data w (p + size + 2 * i * width w) s)
      (vals : ∀ (i : Nat) (s : List UInt8) (t : Tree), kvs[i]? = some (s, t) →
        Value r data (some w) (p + size + (2 * i + 1) * width w) (p + size + (2 * i + 1) * width w + width w) t)
      (rest : kvs.length < pairs → Nameless r data w (p + size + 2 * kvs.length * width w)) :
      Value r data none p e (.dict kvs)

/-- The bytes are the document `t`. -/
inductive Document (r : Reader) (data : List UInt8) (t : Tree) : Prop where
  | alone (two : data.length = 2) (h : Value r data none 0 2 t)
  | root {p q e : Nat} (len : data.length = q + 2) (to : Leads r data Bool.false q p e) (h : Value r data none p e t)

end Fleece.Liberal
