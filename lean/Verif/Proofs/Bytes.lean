import Verif.Model.Value

/-! # Facts about single bytes (complete case analysis over the 256 bytes) and byte lists -/

namespace Fleece

/-- A property of bytes holds for all of them if it holds for the 256 cases. -/
theorem forall_byte {P : UInt8 → Prop} (h : ∀ n : Fin 256, P (UInt8.ofNat n.val)) (b : UInt8) : P b := by
  have := h ⟨b.toNat, b.toNat_lt⟩
  simpa using this

theorem byte_lt (b : UInt8) : b.toNat < 256 := b.toNat_lt

theorem byte_or80_and7f (b : UInt8) : (b ||| 0x80) &&& 0x7F = b &&& 0x7F := by
  revert b; exact forall_byte (by decide +kernel)

theorem byte_or80_ge (b : UInt8) : 0x80 ≤ b ||| 0x80 := by
  revert b; exact forall_byte (by decide +kernel)

theorem byte_and7f (b : UInt8) : (b &&& 0x7F).toNat = b.toNat % 128 := by
  revert b; exact forall_byte (by decide +kernel)

theorem byte_and0f (b : UInt8) : (b &&& 0x0F).toNat = b.toNat % 16 := by
  revert b; exact forall_byte (by decide +kernel)

theorem byte_and07 (b : UInt8) : (b &&& 0x07).toNat = b.toNat % 8 := by
  revert b; exact forall_byte (by decide +kernel)

theorem byte_ge80_iff (b : UInt8) : 0x80 ≤ b ↔ 128 ≤ b.toNat := by
  rw [UInt8.le_iff_toNat_le]; rfl

theorem byte_lt80_iff (b : UInt8) : b < 0x80 ↔ b.toNat < 128 := by
  rw [UInt8.lt_iff_toNat_lt]; rfl

theorem toNat_ofNat_lt {n : Nat} (h : n < 256) : (UInt8.ofNat n).toNat = n := by
  simp [UInt8.toNat_ofNat']; omega

theorem byte_ext {a b : UInt8} (h : a.toNat = b.toNat) : a = b := UInt8.toNat_inj.mp h

end Fleece
