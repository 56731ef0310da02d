import Verif.Proofs.Address
import Verif.Proofs.Local

/-! # C14 Decoding does not depend on where the bytes are -/

namespace Fleece.Props
open Fleece Res

private theorem accept_at (data : List UInt8) (b b' : Nat) (h' : b' + data.length < 2 ^ 64) (v : Val)
    (h : fromBytes ⟨data, b, true⟩ = .ok v) : fromBytes ⟨data, b', true⟩ = .ok v := by
  have he : Embeds ⟨data, b, true⟩ 0 ⟨data, b', true⟩ := ⟨by simp, fun i _ => by simp, rfl⟩
  have := fromBytesGo_shift he (by simp) rfl h' rfl (Or.inl rfl) _ _ (Nat.le_refl _) v h
  simpa [Val.shift, fromBytes] using this

/-- **C14.** Two buffers with equal contents, at any two addresses at which they fit: one is accepted exactly when the
other is, with the same relative position. -/
theorem C14_acceptance_address_free (data : List UInt8) (b b' : Nat) (hb : b + data.length < 2 ^ 64)
    (hb' : b' + data.length < 2 ^ 64) (v : Val) :
    fromBytes ⟨data, b, true⟩ = .ok v ↔ fromBytes ⟨data, b', true⟩ = .ok v :=
  ⟨accept_at data b b' hb' v, accept_at data b' b hb v⟩

/-- **C14.** Same error as well: if neither call panics the outcomes are equal, up to the two machine addresses that the
error `PointerTargetOutOfBounds` carries. (A count close to `2^64` panics at some addresses and is an error at others.) -/
theorem C14_errors_address_free (data : List UInt8) (b b' : Nat)
    (hp : fromBytes ⟨data, b, true⟩ ≠ .panic) (hp' : fromBytes ⟨data, b', true⟩ ≠ .panic) :
    (∃ v, fromBytes ⟨data, b, true⟩ = .ok v ∧ fromBytes ⟨data, b', true⟩ = .ok v) ∨
    (∃ e e', fromBytes ⟨data, b, true⟩ = .err e ∧ fromBytes ⟨data, b', true⟩ = .err e' ∧ e.erase = e'.erase) := by
  have h : Alike (fromBytes ⟨data, b, true⟩) (fromBytes ⟨data, b', true⟩) :=
    fromBytesGo_at ⟨data, b, true⟩ b' rfl _
  have s1 := (safe_iff _).mp (fromBytesGo_safe ⟨data, b, true⟩ rfl _ (Nat.le_refl _))
  have s2 := (safe_iff _).mp (fromBytesGo_safe ⟨data, b', true⟩ rfl _ (Nat.le_refl _))
  change fromBytes ⟨data, b, true⟩ ≠ _ ∧ fromBytes ⟨data, b, true⟩ ≠ _ at s1
  change fromBytes ⟨data, b', true⟩ ≠ _ ∧ fromBytes ⟨data, b', true⟩ ≠ _ at s2
  generalize fromBytes ⟨data, b, true⟩ = x at *
  generalize fromBytes ⟨data, b', true⟩ = y at *
  cases x <;> cases y <;> first
    | exact absurd rfl hp
    | exact absurd rfl hp'
    | exact absurd rfl s1.1
    | exact absurd rfl s1.2
    | exact absurd rfl s2.1
    | exact absurd rfl s2.2
    | (left; simp only [Alike] at h; subst h; exact ⟨_, rfl, rfl⟩)
    | (right; exact ⟨_, _, rfl, rfl, h⟩)
    | exact absurd h (by simp [Alike])

example : fromBytes ⟨[0x60, 0x01, 0x00, 0x05, 0x80, 0x02], 0x7f00, true⟩ = .ok ⟨0, 4⟩ := by decide +kernel
example : fromBytes ⟨[0x00, 0x05, 0x80, 0x20], 0x100, true⟩ = .err (.pointerTargetOutOfBounds 0x100 0xc2 0x40) ∧
    fromBytes ⟨[0x00, 0x05, 0x80, 0x20], 0x200, true⟩ = .err (.pointerTargetOutOfBounds 0x200 0x1c2 0x40) := by
  decide +kernel

end Fleece.Props
