import Verif.Model.Value

/-! # Specification vocabulary: byte formats, independent of the model's functions -/

namespace Fleece.Spec

/-- The LEB128 encoding of a number: groups of seven bits, least significant first, the top bit of each byte
saying whether another follows. -/
def leb128 (v : Nat) : List UInt8 :=
  if h : v < 128 then [UInt8.ofNat v] else UInt8.ofNat (128 + v % 128) :: leb128 (v / 128)
termination_by v
decreasing_by omega

/-- Byte strings without the three constructs on which the reader can panic. At every even position
(every value starts at one) there is no
* string or data header announcing two bytes or more,
* pointer header with the external bit,
* array or dict header whose count is stored in a varint. -/
def Tame (data : List UInt8) : Prop :=
  ∀ i b, i % 2 = 0 → data[i]? = some b →
    ¬ (0x40 ≤ b.toNat ∧ b.toNat < 0x60 ∧ 2 ≤ b.toNat % 16) ∧
    ¬ (0xC0 ≤ b.toNat) ∧
    ¬ (0x60 ≤ b.toNat ∧ b.toNat < 0x80 ∧ b.toNat % 8 = 7 ∧ data[i + 1]? = some 0xFF)

end Fleece.Spec

namespace Fleece

/-- An error with the machine addresses removed. -/
def DecodeError.erase : DecodeError → DecodeError
  | .pointerTargetOutOfBounds _ _ o => .pointerTargetOutOfBounds 0 0 o
  | e => e

end Fleece

namespace Fleece.Spec

/-- The slice `v` of the document starts with the bytes `bs`; anything may come before and after them. -/
def Placed (bs : List UInt8) (m : Mem) (v : Val) : Prop :=
  ∃ pre post, m.data = pre ++ bs ++ post ∧ v.pos = pre.length ∧ bs.length ≤ v.len ∧ v.len ≤ bs.length + post.length

end Fleece.Spec
