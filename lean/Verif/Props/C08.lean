import Verif.Proofs.NoPanic

/-! # C08 Decoding reports malformed data as an error -/

namespace Fleece.Props
open Fleece Res

/-- **C08**, as far as it holds: in either profile, and for every recursion depth, the decoder never panics on a
byte string without the three constructs excluded by `Spec.Tame` (headers at even positions announcing a string
or data of two bytes or more, external pointers, varint counts). The buffer must not lie within 64 KiB of the end
of the address space. The full statement (every byte string) is false: `C08_panics`. -/
theorem C08_no_panic_partial (m : Mem) (hT : Spec.Tame m.data) (ha : m.base + m.data.length + 2 ^ 16 ≤ 2 ^ 64)
    (fuel : Nat) : fromBytesGo m fuel ≠ .panic :=
  tame_fromBytes hT ha fuel

/-- **C08**, as far as it holds: on tame input the overflow-checked decoder always returns `Ok` or `Err`. -/
theorem C08_ok_or_err_partial (m : Mem) (hdbg : m.dbg = true) (hT : Spec.Tame m.data)
    (ha : m.base + m.data.length + 2 ^ 16 ≤ 2 ^ 64) :
    (∃ v, fromBytes m = .ok v) ∨ (∃ e, fromBytes m = .err e) := by
  have h1 := (safe_iff _).mp (fromBytesGo_safe m hdbg _ (Nat.le_refl _))
  have h2 := C08_no_panic_partial m hT ha (fuelFor m.data.length)
  unfold fromBytes
  match h : fromBytesGo m (fuelFor m.data.length) with
  | .ok v => exact Or.inl ⟨v, rfl⟩
  | .err e => exact Or.inr ⟨e, rfl⟩
  | .panic => exact absurd h h2
  | .ub => exact absurd h h1.1
  | .diverge => exact absurd h h1.2

/-- Read the other way: a panic has one of three visible causes, at an even position of the input. -/
theorem C08_panic_cause_partial (m : Mem) (ha : m.base + m.data.length + 2 ^ 16 ≤ 2 ^ 64)
    (h : fromBytes m = .panic) :
    ∃ i b, i % 2 = 0 ∧ m.data[i]? = some b ∧
      ((0x40 ≤ b.toNat ∧ b.toNat < 0x60 ∧ 2 ≤ b.toNat % 16) ∨ 0xC0 ≤ b.toNat ∨
       (0x60 ≤ b.toNat ∧ b.toNat < 0x80 ∧ b.toNat % 8 = 7 ∧ m.data[i + 1]? = some 0xFF)) := by
  apply Classical.byContradiction
  intro hc
  apply C08_no_panic_partial m ?_ ha _ h
  intro i b hi hb
  refine ⟨fun h => hc ⟨i, b, hi, hb, Or.inl h⟩, fun h => hc ⟨i, b, hi, hb, Or.inr (Or.inl h)⟩,
    fun h => hc ⟨i, b, hi, hb, Or.inr (Or.inr h)⟩⟩

/-- The full statement of C08 is false: a string announcing five bytes in a two-byte slot, an external pointer,
an over-long varint, an inline string of length two in a narrow array. -/
theorem C08_panics :
    fromBytes { data := [0x45, 0, 0x80, 0x01] } = .panic ∧
    fromBytes { data := [0x00, 0x00, 0xC0, 0x01] } = .panic ∧
    fromBytes { data := [0x4F, 0x80, 0x80, 0x80, 0x80, 0x80, 0x80, 0x80, 0x80, 0x80, 0x80, 0x80, 0x80, 0x06] } = .panic ∧
    fromBytes { data := [0x60, 0x01, 0x42, 0x61, 0x80, 0x02] } = .panic ∧
    fromBytes { data := [0x45, 0, 0x80, 0x01], dbg := false } = .panic ∧
    fromBytes { data := [0x00, 0x00, 0xC0, 0x01], dbg := false } = .panic := by
  decide +kernel

/-- A tame document that is accepted, and a tame one that is refused. -/
example : Spec.Tame [0x60, 0x02, 0x00, 0x05, 0x41, 0x61, 0x80, 0x03] := by
  intro i b hi h
  match i with
  | 0 | 1 | 2 | 3 | 4 | 5 | 6 | 7 => simp at h; subst h; revert hi; decide
  | n + 8 => simp at h
example : fromBytes { data := [0x60, 0x02, 0x00, 0x05, 0x41, 0x61, 0x80, 0x03] } = .ok ⟨0, 6⟩ := by decide +kernel
example : fromBytes { data := [0x60, 0x09, 0x00, 0x05, 0x41, 0x61, 0x80, 0x03] } = .err (.arrayOutOfBounds 9 2 6) := by
  decide +kernel

end Fleece.Props
