import Verif.Proofs.Arith

/-! # C52 Decoding does not leave its buffer even to compute an address

In Rust, moving a raw pointer out of its allocation is undefined behaviour, read or not. `fromBytesStrict` is
`Value::from_bytes` under that rule, the allocation being the buffer (Model/Arith.lean). -/

namespace Fleece.Props
open Fleece Res

/-- The full statement of C52 is false, of both builds and of a whole class of inputs: whenever `from_bytes` answers that a
pointer leads out of the data, it has moved a pointer there before it looked. -/
theorem C52_moves_before_check (m : Mem) (base target : Nat) (offset : Nat)
    (h : fromBytes m = .err (.pointerTargetOutOfBounds base target offset)) : fromBytesStrict m = .ub := by
  have hr := fromBytesStrict_rel m
  rw [h] at hr
  rcases hr with ⟨_, h⟩ | ⟨h, _⟩
  · exact h
  · exact absurd trivial h

/-- Two bytes are enough. -/
example : fromBytes { data := [0x80, 0x02] } = .err (.pointerTargetOutOfBounds 0 (2 ^ 64 - 4) 4) := by decide +kernel
example : fromBytesStrict { data := [0x80, 0x02] } = .ub := by decide +kernel

/-- **C52**, accepted input: every address computed is in the buffer or at its end, and the answer is the same. -/
theorem C52_accepted_partial (m : Mem) (v : Val) : fromBytesStrict m = .ok v ↔ fromBytes m = .ok v := by
  have hr := fromBytesStrict_rel m
  constructor
  · intro h
    rw [h] at hr
    cases hy : fromBytes m with
    | ok a => rw [hy] at hr; cases hr; rfl
    | err e => rw [hy] at hr; rcases hr with ⟨_, h⟩ | ⟨_, h⟩ <;> cases h
    | panic => rw [hy] at hr; rcases hr with h | h <;> cases h
    | ub => rw [hy] at hr; cases hr
    | diverge => rw [hy] at hr; cases hr
  · intro h
    rw [h] at hr
    exact hr

/-- **C52**, rejected input: the same for every other answer, so the class above is exactly what is wrong about `Err`. -/
theorem C52_rejected_partial (m : Mem) (e : DecodeError) :
    fromBytesStrict m = .err e ↔
      fromBytes m = .err e ∧ ∀ base target offset, e ≠ .pointerTargetOutOfBounds base target offset := by
  have hr := fromBytesStrict_rel m
  have hb : e.Before ↔ ∃ base target offset, e = .pointerTargetOutOfBounds base target offset := by
    constructor
    · intro h
      cases e <;> first | exact ⟨_, _, _, rfl⟩ | exact absurd h id
    · rintro ⟨_, _, _, rfl⟩; trivial
  constructor
  · intro h
    rw [h] at hr
    cases hy : fromBytes m with
    | ok a => rw [hy] at hr; cases hr
    | err e' =>
      rw [hy] at hr
      rcases hr with ⟨_, h⟩ | ⟨hn, h⟩
      · cases h
      · cases h
        exact ⟨rfl, fun a b c he => hn (hb.mpr ⟨a, b, c, he⟩)⟩
    | panic => rw [hy] at hr; rcases hr with h | h <;> cases h
    | ub => rw [hy] at hr; cases hr
    | diverge => rw [hy] at hr; cases hr
  · rintro ⟨h, hne⟩
    rw [h] at hr
    rcases hr with ⟨h, _⟩ | ⟨_, h⟩
    · obtain ⟨a, b, c, he⟩ := hb.mp h
      exact absurd he (hne a b c)
    · exact h

/-- **C52**, overflow-checked build: what is left besides that class are inputs on which `from_bytes` panics anyway (an
external pointer is followed by `unimplemented!()`, pointer.rs:42, after the move). -/
theorem C52_otherwise_partial (m : Mem) (hdbg : m.dbg = true) (h : fromBytesStrict m = .ub) :
    fromBytes m = .panic ∨ ∃ base target offset, fromBytes m = .err (.pointerTargetOutOfBounds base target offset) := by
  have hr := fromBytesStrict_rel m
  rw [h] at hr
  cases hy : fromBytes m with
  | ok a => rw [hy] at hr; cases hr
  | err e =>
    rw [hy] at hr
    rcases hr with ⟨hb, _⟩ | ⟨_, h⟩
    · cases e <;> first | exact Or.inr ⟨_, _, _, rfl⟩ | exact absurd hb id
    · cases h
  | panic => exact Or.inl rfl
  | ub => exact absurd hy ((safe_iff _).mp (fromBytesGo_safe m hdbg _ (Nat.le_refl _))).1
  | diverge => rw [hy] at hr; cases hr

example : fromBytes { data := [0xC0, 0x02] } = .panic ∧ fromBytesStrict { data := [0xC0, 0x02] } = .ub := by
  decide +kernel

/-- An array whose count takes a varint, and a document with a pointer. -/
example : fromBytesStrict { data := [0x67, 0xFF, 0x01, 0x00, 0x00, 0x07, 0x80, 0x03] } = .ok ⟨0, 6⟩ := by decide +kernel
example : fromBytesStrict { data := [0x42, 0x61, 0x62, 0x00, 0x60, 0x01, 0x80, 0x03, 0x80, 0x02] } = .ok ⟨4, 4⟩ := by
  decide +kernel
example : fromBytesStrict { data := [0x60, 0x05, 0x80, 0x01] } = .err (.arrayOutOfBounds 5 2 2) := by decide +kernel

end Fleece.Props
