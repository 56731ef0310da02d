import Verif.Proofs.Reader
import Verif.Spec.Tree
import Verif.Spec.Format

/-! # Reading a value whose bytes are known -/

namespace Fleece
open Res

/-- The slice `v` starts with the bytes `bs`. -/
structure Holds (m : Mem) (v : Val) (bs : List UInt8) : Prop where
  hin : v.In m
  le : bs.length ≤ v.len
  eq : (m.data.drop v.pos).take bs.length = bs

namespace Holds
variable {m : Mem} {v : Val} {bs : List UInt8}

theorem getElem? (h : Holds m v bs) {i : Nat} (hi : i < bs.length) : m.data[v.pos + i]? = bs[i]? := by
  conv => rhs; rw [← h.eq]
  rw [List.getElem?_take_of_lt hi, List.getElem?_drop]

theorem byte (h : Holds m v bs) {i : Nat} {b : UInt8} (hb : bs[i]? = some b) : v.byte m i = .ok b := by
  have hi : i < bs.length := by
    rcases Nat.lt_or_ge i bs.length with h | h
    · exact h
    · rw [List.getElem?_eq_none h] at hb; cases hb
  have := h.getElem? hi
  have hl := h.le
  unfold Val.byte
  rw [if_pos (by omega), this, hb]

theorem rawRead (h : Holds m v bs) {a n : Nat} (hn : a + n ≤ bs.length) :
    Fleece.rawRead m (v.pos + a) n = .ok ((bs.drop a).take n) := by
  have h1 := h.hin; have h2 := h.le
  unfold Val.In at h1
  rw [rawRead_eq (by omega)]
  congr 1
  apply List.ext_getElem?
  intro i
  by_cases hi : i < n
  · rw [List.getElem?_take_of_lt hi, List.getElem?_take_of_lt hi, List.getElem?_drop, List.getElem?_drop,
      Nat.add_assoc, h.getElem? (by omega)]
  · rw [List.getElem?_eq_none (by simp; omega), List.getElem?_eq_none (by simp; omega)]

theorem slice (h : Holds m v bs) {a b : Nat} (hab : a ≤ b) (hb : b ≤ bs.length) :
    v.slice m a b = .ok ((bs.drop a).take (b - a)) := by
  have h2 := h.le
  unfold Val.slice
  rw [if_pos ⟨hab, by omega⟩, h.rawRead (by omega)]

/-- The rest of the slice. -/
theorem tail (h : Holds m v bs) {a : Nat} (ha : a ≤ bs.length) :
    ∃ rest, v.slice m a v.len = .ok (bs.drop a ++ rest) := by
  have h1 := h.hin; have h2 := h.le
  unfold Val.In at h1
  refine ⟨(m.data.drop (v.pos + bs.length)).take (v.len - bs.length), ?_⟩
  unfold Val.slice
  rw [if_pos ⟨by omega, by omega⟩, rawRead_eq (by omega)]
  congr 1
  apply List.ext_getElem?
  intro i
  by_cases hi : i < v.len - a
  · rw [List.getElem?_take_of_lt hi, List.getElem?_drop, Nat.add_assoc]
    by_cases hi2 : i < bs.length - a
    · rw [List.getElem?_append_left (by simp; omega), List.getElem?_drop, h.getElem? (by omega)]
    · rw [List.getElem?_append_right (by simp; omega), List.length_drop, List.getElem?_take_of_lt (by omega),
        List.getElem?_drop]
      congr 1; omega
  · rw [List.getElem?_eq_none (by simp; omega), List.getElem?_eq_none (by simp; omega)]

theorem type {b : UInt8} {tl : List UInt8} (h : Holds m v (b :: tl)) : v.type m = .ok (ValueType.fromByte b) := by
  simp [Val.type, h.byte (i := 0) (b := b) rfl]

theorem prefix_ {as : List UInt8} (h : Holds m v (bs ++ as)) : Holds m v bs := by
  have h1 := h.le
  refine ⟨h.hin, by simp at h1; omega, ?_⟩
  have := congrArg (List.take bs.length) h.eq
  rw [List.take_take, Nat.min_eq_left (by simp), List.take_left'] at this
  · exact this
  · rfl

theorem getShort {b0 b1 : UInt8} {tl : List UInt8} (h : Holds m v (b0 :: b1 :: tl)) :
    v.getShort m = .ok ((b0 &&& 0x0F).toNat * 256 + b1.toNat) := by
  unfold Val.getShort
  rw [h.slice (by omega) (by simp)]
  simp

end Holds

/-- Types of single values. -/
def ValueType.isScalar : ValueType → Bool
  | .array | .dict | .pointer => Bool.false
  | _ => Bool.true

/-- `bs` is the encoding of a single value: wherever it is found the reader sees the type `ty`, does not want
more than these bytes, and reads `t`; and this is what the format says of them. -/
structure ScalarBytes (F : FloatOps) (bs : List UInt8) (ty : ValueType) (t : Tree) : Prop where
  two : 2 ≤ bs.length
  scalar : ty.isScalar = true
  type : ∀ m v, Holds m v bs → v.type m = .ok ty
  req : ∀ m v, Holds m v bs → ∃ r, v.requiredSize m = .ok r ∧ r ≤ bs.length
  read : ∀ m v scope f, Holds m v bs → readTree m F scope (f + 1) v = .ok t
  form : Format.Scalar F False bs t

end Fleece
