import Verif.Proofs.Local
import Verif.Proofs.Reader

/-! # C15 Prepending bytes leaves a document readable -/

namespace Fleece.Props
open Fleece Res

/-- **C15.** If the overflow-checked decoder accepts a document longer than a bare two-byte scalar then it accepts the
document with any even number of bytes put in front of it, at any address at which the longer buffer fits, and returns
the same value moved by the length of the prefix. -/
theorem C15_prefix (d p : List UInt8) (b b' : Nat) (v : Val) (hp : p.length % 2 = 0) (hd : 2 < d.length)
    (hb : b' + (p.length + d.length) < 2 ^ 64)
    (hok : fromBytes { data := d, base := b } = .ok v) :
    fromBytes { data := p ++ d, base := b' } = .ok ⟨p.length + v.pos, v.len⟩ := by
  have he : Embeds { data := d, base := b } p.length { data := p ++ d, base := b' } :=
    ⟨by simp, fun i hi => by simp [List.getElem?_append_right], rfl⟩
  refine fromBytesGo_shift he (by simp) rfl (by simpa using hb) hp (Or.inr hd) _ _ ?_ v hok
  unfold fuelFor
  have : d.length + 1 ≤ (p ++ d).length + 1 := by simp
  have := Nat.mul_le_mul this this
  simp only
  omega

/-- Two-byte documents are excluded for a reason: a bare scalar at the end of a longer buffer is not a root. -/
example : fromBytes { data := [0x00, 0x05] } = .ok ⟨0, 2⟩ ∧
    fromBytes { data := [0x00, 0x00, 0x00, 0x05] } = .err .rootNotPointer := by decide +kernel
example : fromBytes { data := [0x60, 0x01, 0x00, 0x05, 0x80, 0x02] } = .ok ⟨0, 4⟩ ∧
    fromBytes { data := [9, 9] ++ [0x60, 0x01, 0x00, 0x05, 0x80, 0x02] } = .ok ⟨2, 4⟩ := by decide +kernel

end Fleece.Props
