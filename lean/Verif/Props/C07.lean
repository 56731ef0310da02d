import Verif.Proofs.Profile

/-! # C07 Decoding never reads outside its input

Every memory access of the model is checked against the buffer; an access outside it yields `ub`. -/

namespace Fleece.Props
open Fleece Res

/-- **C07**, overflow-checked build, any byte string, any depth reached.
The full statement (both profiles) is false, see `C07_release_reads_outside`. -/
theorem C07_stays_in_bounds_partial (m : Mem) (hdbg : m.dbg = true) :
    fromBytes m ≠ .ub ∧ arrayFromBytes m ≠ .ub ∧ dictFromBytes m ≠ .ub := by
  have h : (fromBytes m).Safe := fromBytesGo_safe m hdbg _ (Nat.le_refl _)
  have hin : ∀ v, fromBytes m = .ok v → v.In m := by
    intro v hv
    unfold fromBytes fromBytesGo at hv
    rw [bind_eq_ok] at hv; obtain ⟨r, hr, hv⟩ := hv
    rw [bind_eq_ok] at hv; obtain ⟨_, _, hv⟩ := hv
    cases hv
    exact (findRoot_ok hr).1
  refine ⟨((safe_iff _).mp h).1, ((safe_iff _).mp ?_).1, ((safe_iff _).mp ?_).1⟩
  · unfold arrayFromBytes
    apply h.bind; intro v hv
    apply (type_safe (hin v hv)).bind; intro t _
    split <;> trivial
  · unfold dictFromBytes
    apply h.bind; intro v hv
    apply (type_safe (hin v hv)).bind; intro t _
    split <;> trivial

/-- **C07**, release build: no out-of-bounds access on inputs on which the overflow-checked build does not
panic. -/
theorem C07_stays_in_bounds_release_partial (m : Mem) (hdbg : m.dbg = true) (hp : fromBytes m ≠ .panic) :
    fromBytes { m with dbg := false } ≠ .ub := by
  rcases fromBytesGo_prof hdbg (fuelFor m.data.length) with h | h
  · exact absurd h hp
  · show fromBytesGo m.rel (fuelFor m.data.length) ≠ .ub
    rw [← h]
    exact (C07_stays_in_bounds_partial m hdbg).1

/-- A wide array announcing `2^62` elements: `2^62 * 4` wraps to 0. -/
def overrunBytes : List UInt8 := [0x6F, 0xFF, 0x80, 0x80, 0x80, 0x80, 0x80, 0x80, 0x80, 0x80, 0x40, 0x00, 0x80, 0x06]

private theorem overrun_aux (m : Mem) (n : Nat) (hn : 0 < n) (h : findRoot m = .ok ⟨0, 12⟩)
    (h1 : (⟨0, 12⟩ : Val).type m = .ok .array) (h2 : (⟨0, 12⟩ : Val).isWide m = .ok true)
    (h3 : (⟨0, 12⟩ : Val).arrayLen m = .ok n) (h4 : (⟨0, 12⟩ : Val).firstPos m = .ok 12)
    (h5 : usizeMul (ε := DecodeError) m.dbg n 4 = .ok 0)
    (h6 : usizeAdd (ε := DecodeError) m.dbg (m.base + 12) 0 = .ok 12)
    (h7 : fromRaw m 12 4 = .ub) (h8 : 12 ≤ m.data.length) : fromBytes m = .ub := by
  have hs : ∀ rec : Val → Nat → R Unit, validateElems m rec 4 n 12 = .ub := by
    intro rec
    obtain ⟨k, rfl⟩ : ∃ k, n = k + 1 := ⟨n - 1, by omega⟩
    unfold validateElems
    rw [h7]; rfl
  unfold fromBytes fromBytesGo fuelFor
  simp only [h, ok_bind]
  unfold validateGo
  simp only [h1, ok_bind]
  unfold arrayValidate
  simp only [h2, h3, h4, ok_bind, if_true, h5, Nat.zero_add, h6]
  rw [if_neg (by omega), hs]
  rfl

/-- The full statement of C07 is false of a build without overflow checks: the 14 bytes `overrunBytes` are read
past their end. -/
theorem C07_release_reads_outside : fromBytes { data := overrunBytes, dbg := false } = .ub :=
  overrun_aux _ (2 ^ 62) (by omega) (by decide +kernel) (by decide +kernel) (by decide +kernel) (by decide +kernel)
    (by decide +kernel) (by decide +kernel) (by decide +kernel) (by decide +kernel) (by decide +kernel)

example : fromBytes { data := overrunBytes } = .panic := by decide +kernel

end Fleece.Props
