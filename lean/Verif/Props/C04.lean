import Verif.Proofs.ReadBack
import Verif.Model.Encoder

/-! # C04 Unsigned integers are written and read back unchanged -/

namespace Fleece.Props
open Fleece Res Fleece.Spec

/-- **C04**, as far as it holds, numbers up to 2047 of any unsigned type: they are accepted as inline values, and from the
slot written for them, narrow or wide, `to_unsigned_int` reads the same number. -/
theorem C04_small_partial (x : Scalar) (n : Nat) (hx : x.unsigned = some n) (hn : n ≤ 2047) :
    ∃ s, x.toSized = some s ∧ ∀ wide, ∃ bs, s.writeTo (Enc.slotWidth wide) wide = some bs ∧
      bs.length = Enc.slotWidth wide ∧
      ∀ m F v, Placed bs m v → v.toUnsignedInt m F = .ok n := by
  obtain ⟨b0, b1, hs, h8, hv⟩ := u16Sized_ok hn
  have h16 : b0.toNat < 16 := by omega
  have hsz : x.toSized = some (SizedValue.newNarrow b0 b1) := by
    cases x <;> simp only [Scalar.unsigned, reduceCtorEq, Option.some.injEq] at hx
    all_goals simp only [Scalar.toSized, hx, hs]
    all_goals rw [if_pos hn]
  have hnp : (SizedValue.newNarrow b0 b1).type ≠ .pointer := by
    show ValueType.fromByte b0 ≠ _
    rw [fromByte_short b0 h16]; simp
  refine ⟨_, hsz, fun wide => ?_⟩
  cases wide with
  | false =>
    refine ⟨_, sized_writeTo hnp (Nat.le_refl 2), rfl, fun m F v hp => ?_⟩
    have hh := Holds.of_placed hp
    simp only [SizedValue.newNarrow] at hh
    rw [and_bf_small b0 (by omega)] at hh
    have := short_bytes (F := F) (b1 := b1) (tl := []) h16
    rw [hv, short12_small hn] at this
    exact this.toUnsigned hh (by omega)
  | true =>
    refine ⟨[b0, b1, 0, 0], ?_, rfl, fun m F v hp => ?_⟩
    · unfold SizedValue.writeTo
      rw [if_neg hnp]; simp [Enc.slotWidth, SizedValue.bytes, SizedValue.newNarrow]
    · have hh := Holds.of_placed hp
      have := short_bytes (F := F) (b1 := b1) (tl := [0, 0]) h16
      rw [hv, short12_small hn] at this
      exact this.toUnsigned hh (by omega)

/-- **C04**, as far as it holds, numbers above 2047: a `u32`, or a `u64` whose high bytes are zero as far as its low
ones are (`WordKept`), is written in its announced size, and `to_unsigned_int` reads the same number. The full
statement is for every number of every type; it is false of all others, see below. -/
theorem C04_large_partial (dbg : Bool) (x : Scalar) (n : Nat) (hx : x.unsigned = some n) (hn : 2047 < n)
    (hk : (∃ k, x = .u32 k) ∨ ((∃ k, x = .u64 k) ∧ WordKept n)) :
    x.toSized = none ∧ ∃ bs, x.writeTo dbg x.size false = .ok (some bs) ∧ bs.length = x.size ∧
      ∀ m F v, Placed bs m v → v.toUnsignedInt m F = .ok n := by
  have key : n < 2 ^ 64 → WordKept n → x.size = u64Size n →
      (∀ buf, x.writeTo dbg buf false = writeU64 dbg n buf false) →
      ∃ bs, x.writeTo dbg x.size false = .ok (some bs) ∧ bs.length = x.size ∧
      ∀ m F v, Placed bs m v → v.toUnsignedInt m F = .ok n := by
    intro h64 hw hsz hwr
    obtain ⟨bs, ty, h1, h2, h3⟩ := writeU64_ok (F := ⟨fun _ => 0, fun _ => 0, fun _ => 0, fun _ => 0, fun _ => 0,
      fun _ => 0⟩) dbg h64 (.inr hw) (Nat.le_refl _)
    refine ⟨bs, by rw [hwr, hsz]; exact h1, by rw [h2, hsz], fun m F v hp => ?_⟩
    obtain ⟨bs', ty', h1', h2', h3'⟩ := writeU64_ok (F := F) dbg h64 (.inr hw) (Nat.le_refl _)
    rw [h1] at h1'; cases h1'
    exact h3'.toUnsigned (Holds.of_placed hp) h64
  rcases hk with ⟨k, rfl⟩ | ⟨⟨k, rfl⟩, hw⟩
  · simp only [Scalar.unsigned, Option.some.injEq] at hx
    subst hx
    have := k.toNat_lt
    exact ⟨by simp only [Scalar.toSized]; rw [if_neg (by omega)],
      key (by omega) (wordKept_u32 (by omega) (by omega)) rfl (fun _ => rfl)⟩
  · simp only [Scalar.unsigned, Option.some.injEq] at hx
    subst hx
    exact ⟨by simp only [Scalar.toSized]; rw [if_neg (by omega)],
      key k.toNat_lt hw rfl (fun _ => rfl)⟩

/-- Every other `u64` is lost. Let `z` be the number of its trailing zero bits. If `z ≤ 56` it is written without an
error and reads back as a different number, its remainder modulo `256^(8 - ⌈z/8⌉)`. -/
theorem C04_u64_corrupted (dbg : Bool) (k : UInt64) (hn : 2047 < k.toNat) (hw : ¬ WordKept k.toNat)
    (z : Nat) (hz : 2 ^ z ∣ k.toNat ∧ ¬ 2 ^ (z + 1) ∣ k.toNat) (hz56 : z ≤ 56) :
    k.toNat % 256 ^ (8 - (z + 7) / 8) ≠ k.toNat ∧
    ∃ bs, (Scalar.u64 k).writeTo dbg (Scalar.u64 k).size false = .ok (some bs) ∧
      ∀ m F v, Placed bs m v → v.toUnsignedInt m F = .ok (k.toNat % 256 ^ (8 - (z + 7) / 8)) := by
  have h64 := k.toNat_lt
  have hzt : z = trailingZeros 64 k.toNat := by
    obtain ⟨h1, h2⟩ := trailingZeros_spec 64 (n := k.toNat) (by omega) h64
    have hle := le_trailingZeros (by omega) h64 hz.1
    rcases Nat.lt_or_ge z (trailingZeros 64 k.toNat) with hlt | hge
    · exact absurd (Nat.dvd_trans (Nat.pow_dvd_pow 2 hlt) h1) hz.2
    · omega
  have hd : (z + 7) / 8 = dropped k.toNat := by unfold dropped; rw [hzt]
  rw [hd]
  have hd8 : dropped k.toNat < 8 := by omega
  refine ⟨?_, ?_⟩
  · intro he
    apply hw
    have hlt : k.toNat % 256 ^ (8 - dropped k.toNat) < 256 ^ (8 - dropped k.toNat) := Nat.mod_lt _ (Nat.pow_pos (by omega))
    rw [he] at hlt
    exact (wordKept_iff (by omega) h64).mpr hlt
  · obtain ⟨bs, ty, h1, h2, h3⟩ := writeU64Big_ok (F := ⟨fun _ => 0, fun _ => 0, fun _ => 0, fun _ => 0, fun _ => 0,
      fun _ => 0⟩) dbg hn h64 hd8 (Nat.le_refl _)
    refine ⟨bs, ?_, fun m F v hp => ?_⟩
    · simp only [Scalar.writeTo, writeU64, Scalar.size]
      rw [if_neg (by omega)]; exact h1
    · obtain ⟨bs', ty', h1', h2', h3'⟩ := writeU64Big_ok (F := F) dbg hn h64 hd8 (Nat.le_refl _)
      rw [h1] at h1'; cases h1'
      exact h3'.toUnsigned (Holds.of_placed hp) (Nat.lt_of_le_of_lt (Nat.mod_le _ _) h64)

/-- With 57 or more trailing zero bits nothing of the number is left: `write_value` panics in a build with overflow checks
and writes the single byte `FF` in a build without. -/
theorem C04_u64_nothing_left (dbg : Bool) (k : UInt64) (hn : k ≠ 0) (z : Nat) (hz : 2 ^ z ∣ k.toNat) (h57 : 57 ≤ z) :
    (Scalar.u64 k).writeTo dbg (Scalar.u64 k).size false = if dbg then .panic else .ok (some [0xFF]) := by
  have h64 := k.toNat_lt
  have h0 : k.toNat ≠ 0 := fun h => hn (UInt64.toNat_inj.mp (by simpa using h))
  have hle := le_trailingZeros h0 h64 hz
  have hz0 := (trailingZeros_spec 64 h0 h64).1
  have h2 : 2 ^ trailingZeros 64 k.toNat ≤ k.toNat := Nat.le_of_dvd (by omega) hz0
  have h3 : trailingZeros 64 k.toNat < 64 := (Nat.pow_lt_pow_iff_right (a := 2) (by omega)).mp (by omega)
  have h4 : 2 ^ 57 ≤ k.toNat := Nat.le_trans (Nat.pow_le_pow_right (by omega) (by omega)) h2
  have hs : u64Size k.toNat = 1 := by
    unfold u64Size; rw [if_neg (by omega)]
    omega
  simp only [Scalar.writeTo, writeU64, Scalar.size]
  rw [if_neg (by omega)]
  unfold writeU64Big
  simp [hs]

/-- A `u16` above 2047 always makes `write_value` panic (in either profile): its announced size is 2. -/
theorem C04_u16_panics (c : Cfg) (e : Enc) (k : UInt16) (he : e.stack ≠ []) (hn : 2047 < k.toNat) :
    e.writeValue c (.u16 k) = .panic := by
  have h16 := k.toNat_lt
  have hs : (Scalar.u16 k).toSized = none := by
    simp only [Scalar.toSized, u16Sized]; rw [if_pos hn]
  have hz : trailingZeros 64 k.toNat < 16 := by
    have hz0 := (trailingZeros_spec 64 (n := k.toNat) (by omega) (by omega)).1
    have h2 : 2 ^ trailingZeros 64 k.toNat ≤ k.toNat := Nat.le_of_dvd (by omega) hz0
    exact (Nat.pow_lt_pow_iff_right (a := 2) (by omega)).mp (by omega)
  have hsz : u64Size k.toNat > 2 := by
    unfold u64Size; rw [if_neg (by omega)]; omega
  unfold Enc.writeValue
  rw [if_neg (by simp [he]), hs]
  simp only [Enc.write, Item.writeTo, Item.size, Scalar.size, Scalar.writeTo, writeU16, writeU64Big,
    Bool.false_and, Bool.false_eq_true, if_false]
  rw [if_pos hn, if_pos hsz]
  rfl

/-- Witnesses of the hypotheses. -/
example : (Scalar.u32 4294967295).unsigned = some 4294967295 ∧ ∃ k, Scalar.u32 4294967295 = .u32 k := ⟨rfl, _, rfl⟩

/-- `2^40 + 1` is odd, so all its eight bytes are written. -/
example : WordKept (2 ^ 40 + 1) := (wordKept_iff (by decide) (by decide)).mpr (by decide +kernel)

/-- `2^63 + 2^8` reads back as 256. -/
example : 2 ^ 8 ∣ (9223372036854776064 : UInt64).toNat ∧ ¬ 2 ^ (8 + 1) ∣ (9223372036854776064 : UInt64).toNat ∧
    ¬ WordKept (9223372036854776064 : UInt64).toNat ∧
    (9223372036854776064 : UInt64).toNat % 256 ^ (8 - (8 + 7) / 8) = 256 := by
  refine ⟨by decide +kernel, by decide +kernel, ?_, by decide +kernel⟩
  rw [wordKept_iff (by decide) (by decide)]; decide +kernel

example : (9223372036854775808 : UInt64) ≠ 0 ∧ 2 ^ 57 ∣ (9223372036854775808 : UInt64).toNat := by decide +kernel

example : 2047 < (2048 : UInt16).toNat := by decide

end Fleece.Props
