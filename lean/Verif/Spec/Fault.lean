import Verif.Model.Value
import Verif.Spec.Format
import Verif.Spec.Groups

/-!
# Specification: what is wrong with a document

What each error of the decoder says about the bytes, from the format (`Spec/Format.lean`) and without the decoder. Only the names
of the errors and types are those of the model.
-/

namespace Fleece.Fault
open Spec Format

/-- The slot at `p` begins with a pointer's bits: a set bit, one that says whether it leads out of the document, and the offset. -/
def PointerAt (data : List UInt8) (w : Bool) (p : Nat) (ext : Bool) (off : Nat) : Prop :=
  ∃ bs, Here data p bs ∧ bs.length = width w ∧
    bigEndian bs = 2 ^ (8 * width w - 1) + (if ext then 2 ^ (8 * width w - 2) else 0) + off ∧ off < 2 ^ (8 * width w - 2)

/-- The slots of a collection with `n` elements or entries. -/
def slots (dict : Bool) (n : Nat) : Nat := if dict then 2 * n else n

/-- There is a header of an array or dict at `p` that announces `n` elements or entries, with slots of the given width from
`first`. -/
inductive Announces (data : List UInt8) (p : Nat) (dict w : Bool) : Nat → Nat → Prop where
  | short {b0 b1 : UInt8} (h0 : data[p]? = some b0) (h1 : data[p + 1]? = some b1)
      (kind : b0.toNat / 16 = if dict then 7 else 6) (wide : b0.toNat / 8 % 2 = if w then 1 else 0)
      (lt : b0.toNat % 8 * 256 + b1.toNat < 2047) : Announces data p dict w (b0.toNat % 8 * 256 + b1.toNat) (p + 2)
  | long {b0 b1 : UInt8} {g : List UInt8} {n : Nat} (h0 : data[p]? = some b0) (h1 : data[p + 1]? = some b1)
      (kind : b0.toNat / 16 = if dict then 7 else 6) (wide : b0.toNat / 8 % 2 = if w then 1 else 0)
      (eq : b0.toNat % 8 * 256 + b1.toNat = 2047) (here : Here data (p + 2) g) (num : Groups g n) :
      Announces data p dict w n (p + 2 + (g.length + 1) / 2 * 2)

/-- The bytes that a value of fixed size has, by its first byte. -/
inductive Sized (b : UInt8) : ValueType → Nat → Prop where
  | int (h : b.toNat / 8 = 2) : Sized b .int (2 + b.toNat % 8)
  | unsigned (h : b.toNat / 8 = 3) : Sized b .unsignedInt (2 + b.toNat % 8)
  | float (h : b.toNat / 4 = 8) : Sized b .float 6
  | double32 (h : b.toNat / 4 = 9) : Sized b .double32 6
  | double64 (h : b.toNat / 8 = 5) : Sized b .double64 10

/-- What the bytes of a value at `p` may not go beyond: the end of the document, of the slot, or a pointer behind it. -/
inductive Edge (data : List UInt8) (p : Nat) : Nat → Prop where
  | all : Edge data p data.length
  | slot {w : Bool} (fits : p + width w ≤ data.length) : Edge data p (p + width w)
  | pointer {w : Bool} {q off : Nat} (lt : p < q) (h : PointerAt data w q false off) : Edge data p q

/-- The error is a true statement about the bytes, which begin at the address `base`. -/
inductive Fault (data : List UInt8) (base : Nat) : DecodeError → Prop where
  | sized (h : data.length = 0 ∨ data.length % 2 = 1) : Fault data base .inputIncorrectlySized
  | root {b : UInt8} (two : 2 < data.length) (h : data[data.length - 2]? = some b) (no : b.toNat < 128) :
      Fault data base .rootNotPointer
  /-- A pointer leads to a pointer two bytes before it. The latter is taken for a wide one and needs four bytes. -/
  | small {w : Bool} {p : Nat} {b : UInt8} (h : PointerAt data w (p + 2) false 1) (to : data[p]? = some b) (ptr : 128 ≤ b.toNat) :
      Fault data base (.pointerTooSmall 2 4)
  | zero {w ext : Bool} {p : Nat} (h : PointerAt data w p ext 0) : Fault data base .pointerOffsetZero
  /-- The target has an address before that of the document; addresses are taken modulo 2^64. -/
  | target {w : Bool} {p off : Nat} (h : PointerAt data w p false off) (out : p < 2 * off) :
      Fault data base (.pointerTargetOutOfBounds base ((base + p + 2 ^ 64 - 2 * off) % 2 ^ 64) (2 * off))
  /-- The number that is announced is taken modulo 2^64 (C69). -/
  | array {p n first e : Nat} {dict w : Bool} (h : Announces data p dict w n first) (edge : Edge data p e) (le : first ≤ e)
      (out : e < first + slots dict (n % 2 ^ 64) * width w) :
      Fault data base (.arrayOutOfBounds (slots dict (n % 2 ^ 64)) (width w) (e - first))
  | value {p e r : Nat} {b : UInt8} {t : ValueType} (h : data[p]? = some b) (s : Sized b t r) (edge : Edge data p e) (le : p ≤ e)
      (out : e < p + r) : Fault data base (.valueOutOfBounds t r (e - p))

end Fleece.Fault
