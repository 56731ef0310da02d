import Verif.Proofs.Varint
import Verif.Spec.Bytes

/-! # C01 Length prefixes round-trip -/

namespace Fleece.Props
open Fleece

private theorem leb_byte : ∀ r : Fin 128, UInt8.ofNat (128 + r.val) = UInt8.ofNat r.val ||| 0x80 := by
  decide +kernel

private theorem or80 (b : UInt8) : b ||| 0x80 = UInt8.ofNat (b.toNat % 128) ||| 0x80 := by
  revert b; apply forall_byte; decide +kernel

private theorem writeGo_leb (f v : Nat) (h : v < 128 ^ f) (hf : 0 < f) : Varint.writeGo f v = Spec.leb128 v := by
  induction f generalizing v with
  | zero => omega
  | succ f ih =>
    unfold Varint.writeGo Spec.leb128
    by_cases hv : v < 128
    · rw [dif_pos hv, if_neg (by omega)]
    · rw [dif_neg hv, if_pos (by omega)]
      have hf0 : 0 < f := by
        rcases Nat.eq_zero_or_pos f with rfl | h0
        · simp at h; omega
        · exact h0
      rw [Varint.shr7, ih (v / 128) (by rw [Nat.pow_succ] at h; omega) hf0]
      congr 1
      rw [leb_byte ⟨v % 128, by omega⟩, or80]
      congr 2
      simp

/-- The encoder writes the standard LEB128 form. -/
theorem C01_write_is_leb128 (v : Nat) (hv : v < 2 ^ 64) : Varint.write v = Spec.leb128 v :=
  writeGo_leb 10 v (by omega) (by omega)

/-- **C01.** Every length is read back, whatever bytes follow; the read consumes exactly the bytes written;
these are as many as `size_required` reserved, between 1 and 10. -/
theorem C01_length_prefix_roundtrip {ε : Type} (dbg : Bool) (v : Nat) (hv : v < 2 ^ 64) (rest : List UInt8) :
    Varint.read (ε := ε) dbg (Spec.leb128 v ++ rest) = .ok ((Spec.leb128 v).length, v) ∧
    Varint.sizeRequired v = (Spec.leb128 v).length ∧
    1 ≤ (Spec.leb128 v).length ∧ (Spec.leb128 v).length ≤ 10 := by
  rw [← C01_write_is_leb128 v hv]
  exact ⟨Varint.read_write dbg v hv rest, (Varint.write_length_eq v hv).symm, Varint.write_length_pos v,
    Varint.write_length_le v⟩

example : Spec.leb128 300 = [0xAC, 0x02] := by
  unfold Spec.leb128; simp; unfold Spec.leb128; simp
example : Varint.write (2 ^ 64 - 1) = [255, 255, 255, 255, 255, 255, 255, 255, 255, 1] := by decide +kernel

end Fleece.Props
