import Verif.Proofs.Scalar
import Verif.Spec.Scalar

/-! # Every `Encodable` type -/

namespace Fleece
open Res

section
variable {F : FloatOps}

/-! ## Short integers -/

theorem and_bf_small (b : UInt8) (h : b.toNat < 64) : b &&& 0xBF = b := by
  revert h b; exact forall_byte (by decide +kernel)

theorem ofNat_toNat_small {n : Nat} (h : n < 256) : (UInt8.ofNat n).toNat = n := by
  simp; omega

theorem i16Sized_ok {n : Int} (h : ShortRange n) : ∃ b0 b1, i16Sized n = some (SizedValue.newNarrow b0 b1) ∧
    b0.toNat < 16 ∧ short12 (b0.toNat * 256 + b1.toNat) = n := by
  obtain ⟨h1, h2⟩ := h
  have hm : (0 : Int) ≤ n % 2 ^ 16 ∧ n % 2 ^ 16 < 65536 := by omega
  have hu : ((n % 2 ^ 16).toNat : Int) = n % 2 ^ 16 := Int.toNat_of_nonneg hm.1
  unfold i16Sized
  rw [if_neg (by omega)]
  refine ⟨_, _, rfl, ?_, ?_⟩
  · rw [byte_and0f]; omega
  · generalize (n % 2 ^ 16).toNat = u at hu
    have e1 : ((UInt8.ofNat (u / 256)) &&& 0x0F).toNat = u / 256 % 16 := by
      rw [byte_and0f, ofNat_toNat_small (by omega)]
    have e2 : (UInt8.ofNat u).toNat = u % 256 := by simp
    rw [e1, e2]
    unfold short12
    split <;> omega

theorem u16Sized_ok {n : Nat} (h : n ≤ 2047) : ∃ b0 b1, u16Sized n = some (SizedValue.newNarrow b0 b1) ∧
    b0.toNat < 8 ∧ b0.toNat * 256 + b1.toNat = n := by
  unfold u16Sized
  rw [if_neg (by omega)]
  refine ⟨_, _, rfl, ?_, ?_⟩
  · rw [ofNat_toNat_small (by omega)]; omega
  · rw [ofNat_toNat_small (by omega)]; simp; omega

theorem short12_small {n : Nat} (h : n ≤ 2047) : short12 n = n := by
  unfold short12; rw [if_pos (by omega)]

/-- What a slot value made inline looks like in a narrow slot and in a wide slot. -/
structure SlotBytes (F : FloatOps) (s : SizedValue) (t : Tree) : Prop where
  notPointer : s.type ≠ .pointer
  wide : ∃ ty, ScalarBytes F s.bytes ty t
  narrow : s.b0.toNat < 64 → ∃ ty, ScalarBytes F [s.b0 &&& 0xBF, s.b1] ty t

theorem short_slot {b0 b1 : UInt8} (h : b0.toNat < 16) :
    SlotBytes F (SizedValue.newNarrow b0 b1) (.int (short12 (b0.toNat * 256 + b1.toNat))) := by
  refine ⟨?_, ⟨_, short_bytes h⟩, fun _ => ?_⟩
  · show ValueType.fromByte b0 ≠ _
    rw [fromByte_short b0 h]; simp
  · show ∃ ty, ScalarBytes F [b0 &&& 0xBF, b1] ty _
    rw [and_bf_small b0 (by omega)]
    exact ⟨_, short_bytes h⟩

/-- What `SizedValue::write_fleece_to` writes for it. -/
theorem sized_writeTo {s : SizedValue} (hs : s.type ≠ .pointer) {buf : Nat} (hb : 2 ≤ buf) :
    s.writeTo buf false = some [s.b0 &&& 0xBF, s.b1] := by
  unfold SizedValue.writeTo
  rw [if_neg hs]
  simp only [Bool.false_eq_true, if_false]
  rw [if_neg (by omega)]

theorem writeSigned16_ok {n : Int} (h : ShortRange n) {buf : Nat} (hb : 2 ≤ buf) (f : Nat) :
    ∃ bs ty, writeSigned (f + 1) true n buf false = .ok (some bs) ∧ bs.length = 2 ∧ ScalarBytes F bs ty (.int n) ∧
      ty = .short := by
  obtain ⟨b0, b1, hs, h16, hv⟩ := i16Sized_ok h
  have hslot := short_slot (F := F) (b1 := b1) h16
  refine ⟨[b0 &&& 0xBF, b1], .short, ?_, rfl, ?_, rfl⟩
  · unfold writeSigned
    rw [if_neg (by unfold ShortRange at h; omega), hs]
    simp only
    rw [sized_writeTo hslot.notPointer hb]; rfl
  · rw [and_bf_small b0 (by omega), ← hv]; exact short_bytes h16

theorem writeSigned64_eq (n : Int) (buf : Nat) (wide : Bool) (f : Nat) :
    writeSigned (f + 1) false n buf wide = writeSigned f true (Int.bmod n (2 ^ 16)) buf wide := by
  conv => lhs; unfold writeSigned
  rw [if_pos (by omega)]

theorem bmod16_of_short {n : Int} (h : ShortRange n) : Int.bmod n (2 ^ 16) = n := by
  obtain ⟨h1, h2⟩ := h
  exact Int.bmod_eq_of_le (by omega) (by omega)

theorem writeU16_ok (dbg : Bool) {n : Nat} (h : n ≤ 2047) {buf : Nat} (hb : 2 ≤ buf) :
    ∃ bs ty, writeU16 dbg n buf false = .ok (some bs) ∧ bs.length = 2 ∧ ScalarBytes F bs ty (.int n) := by
  obtain ⟨b0, b1, hs, h8, hv⟩ := u16Sized_ok h
  have hslot := short_slot (F := F) (b1 := b1) (show b0.toNat < 16 by omega)
  obtain ⟨ty, hn⟩ := hslot.narrow (by show b0.toNat < 64; omega)
  refine ⟨[b0 &&& 0xBF, b1], ty, ?_, rfl, ?_⟩
  · unfold writeU16
    rw [if_neg (by omega), hs]
    simp only
    rw [sized_writeTo hslot.notPointer hb]; rfl
  · rw [hv, short12_small h] at hn; exact hn

/-! ## Large unsigned integers -/

theorem trailingZeros_spec (f : Nat) : ∀ {n : Nat}, n ≠ 0 → n < 2 ^ f →
    2 ^ trailingZeros f n ∣ n ∧ ¬ 2 ^ (trailingZeros f n + 1) ∣ n := by
  induction f with
  | zero => intro n h0 h; omega
  | succ f ih =>
    intro n h0 h
    unfold trailingZeros
    by_cases he : n % 2 = 0
    · rw [if_pos he]
      obtain ⟨h1, h2⟩ := ih (n := n / 2) (by omega) (by rw [Nat.pow_succ] at h; omega)
      have hn : n = 2 * (n / 2) := by omega
      constructor
      · rw [Nat.pow_succ, Nat.mul_comm]
        conv => rhs; rw [hn]
        exact Nat.mul_dvd_mul_left 2 h1
      · intro hd
        rw [Nat.pow_succ 2 (_ + 1), Nat.mul_comm _ 2] at hd
        conv at hd => rhs; rw [hn]
        exact h2 (Nat.dvd_of_mul_dvd_mul_left (by omega) hd)
    · rw [if_neg he]
      refine ⟨by simp, ?_⟩
      intro hd
      exact he (Nat.mod_eq_zero_of_dvd (by simpa using hd))

/-- The number of bytes dropped by `u64::fleece_size`. -/
def dropped (n : Nat) : Nat := (trailingZeros 64 n + 7) / 8

theorem dropped_le {n : Nat} (h0 : n ≠ 0) (h : n < 2 ^ 64) : dropped n ≤ 8 := by
  have h1 := (trailingZeros_spec 64 h0 h).1
  have h2 : 2 ^ trailingZeros 64 n ≤ n := Nat.le_of_dvd (by omega) h1
  have h3 : trailingZeros 64 n < 64 := (Nat.pow_lt_pow_iff_right (a := 2) (by omega)).mp (by omega)
  unfold dropped; omega

/-- Every divisor `2^j` of `n` has `j` at most the number of trailing zeros. -/
theorem le_trailingZeros {n j : Nat} (h0 : n ≠ 0) (h : n < 2 ^ 64) (hd : 2 ^ j ∣ n) : j ≤ trailingZeros 64 n := by
  have h1 := (trailingZeros_spec 64 h0 h).2
  rcases Nat.lt_or_ge (trailingZeros 64 n) j with hlt | hge
  · exact absurd (Nat.dvd_trans (Nat.pow_dvd_pow 2 hlt) hd) h1
  · exact hge

theorem pow_split {k : Nat} (h : k ≤ 8) : (256 : Nat) ^ (8 - k) * 256 ^ k = 2 ^ 64 := by
  rw [← Nat.pow_add, Nat.sub_add_cancel h]

/-- `WordKept` in terms of the bytes dropped. -/
theorem wordKept_iff {n : Nat} (h0 : n ≠ 0) (h : n < 2 ^ 64) :
    WordKept n ↔ n < 256 ^ (8 - dropped n) := by
  have hk := dropped_le h0 h
  have hpow := pow_split hk
  have hpos : 0 < 256 ^ dropped n := Nat.pow_pos (by omega)
  constructor
  · intro hw
    have := hw _ (trailingZeros_spec 64 h0 h).1
    rw [← hpow] at this
    exact Nat.lt_of_mul_lt_mul_right this
  · intro hlt j hd
    have hj := le_trailingZeros h0 h hd
    have h1 : 256 ^ ((j + 7) / 8) ≤ 256 ^ dropped n := Nat.pow_le_pow_right (by omega) (by unfold dropped; omega)
    calc n * 256 ^ ((j + 7) / 8) ≤ n * 256 ^ dropped n := Nat.mul_le_mul_left _ h1
      _ < 256 ^ (8 - dropped n) * 256 ^ dropped n := Nat.mul_lt_mul_of_pos_right hlt hpos
      _ = 2 ^ 64 := hpow

theorem wordKept_u32 {n : Nat} (h0 : n ≠ 0) (h : n < 2 ^ 32) : WordKept n := by
  have h64 : n < 2 ^ 64 := by omega
  rw [wordKept_iff h0 h64]
  have h1 := (trailingZeros_spec 64 h0 h64).1
  have h2 : 2 ^ trailingZeros 64 n ≤ n := Nat.le_of_dvd (by omega) h1
  have h3 : trailingZeros 64 n < 32 := (Nat.pow_lt_pow_iff_right (a := 2) (by omega)).mp (by omega)
  have h4 : 256 ^ 4 ≤ 256 ^ (8 - dropped n) := Nat.pow_le_pow_right (by omega) (by unfold dropped; omega)
  omega

/-- What the code writes for a number above 2047, as long as not all bytes are dropped. -/
theorem writeU64Big_ok (dbg : Bool) {n : Nat} (hn : 2047 < n) (h : n < 2 ^ 64) (hd : dropped n < 8) {buf : Nat}
    (hb : u64Size n ≤ buf) :
    ∃ bs ty, writeU64Big dbg n buf = .ok (some bs) ∧ bs.length = u64Size n ∧
      ScalarBytes F bs ty (.int ((n % 256 ^ (8 - dropped n) : Nat) : Int)) := by
  have hs : u64Size n = (8 - dropped n) + 1 := by
    unfold u64Size; rw [if_neg (by omega)]; rfl
  refine ⟨(0x10 ||| 0x08 ||| UInt8.ofNat (8 - dropped n - 1)) :: leBytes (8 - dropped n) n, _, ?_, ?_,
    uint_bytes (by omega) (by omega)⟩
  · unfold writeU64Big
    simp only
    rw [if_neg (by omega), hs, Nat.add_sub_cancel, if_neg (by omega)]
  · rw [List.length_cons, leBytes_length, hs]

theorem writeU64_ok (dbg : Bool) {n : Nat} (h : n < 2 ^ 64) (hw : n ≤ 2047 ∨ WordKept n) {buf : Nat}
    (hb : u64Size n ≤ buf) :
    ∃ bs ty, writeU64 dbg n buf false = .ok (some bs) ∧ bs.length = u64Size n ∧ ScalarBytes F bs ty (.int n) := by
  unfold writeU64
  by_cases hs : n ≤ 2047
  · rw [if_pos hs]
    have : u64Size n = 2 := by unfold u64Size; rw [if_pos hs]
    rw [this] at hb ⊢
    exact writeU16_ok dbg hs hb
  · rw [if_neg hs]
    have hlt := (wordKept_iff (by omega) h).mp (hw.resolve_left hs)
    have hd8 : dropped n < 8 := by
      rcases Nat.lt_or_ge (dropped n) 8 with h | h
      · exact h
      · rw [Nat.sub_eq_zero_of_le h] at hlt; simp at hlt; omega
    obtain ⟨bs, ty, h1, h2, h3⟩ := writeU64Big_ok (F := F) dbg (by omega) h hd8 hb
    rw [Nat.mod_eq_of_lt hlt] at h3
    exact ⟨bs, ty, h1, h2, h3⟩

/-! ## Constants -/

theorem constant_slot {b : UInt8} {t : Tree} (h : (b = 0x30 ∧ t = .null) ∨ (b = 0x3C ∧ t = .undefined) ∨
      (b = 0x34 ∧ t = .bool false) ∨ (b = 0x38 ∧ t = .bool true)) :
    (∃ ty, ∀ tl, ScalarBytes F (b :: 0 :: tl) ty t) ∧ b.toNat < 64 ∧ ValueType.fromByte b ≠ .pointer := by
  rcases h with ⟨rfl, rfl⟩ | ⟨rfl, rfl⟩ | ⟨rfl, rfl⟩ | ⟨rfl, rfl⟩
  · exact ⟨⟨.null, fun _ => constant_bytes (.inl ⟨rfl, rfl, rfl⟩)⟩, by decide, by decide⟩
  · exact ⟨⟨.undefined, fun _ => constant_bytes (.inr (.inl ⟨rfl, rfl, rfl⟩))⟩, by decide, by decide⟩
  · exact ⟨⟨.false, fun _ => constant_bytes (.inr (.inr (.inl ⟨rfl, rfl, rfl⟩)))⟩, by decide, by decide⟩
  · exact ⟨⟨.true, fun _ => constant_bytes (.inr (.inr (.inr ⟨rfl, rfl, rfl⟩)))⟩, by decide, by decide⟩

theorem constant_sized {b : UInt8} {t : Tree} (h : (b = 0x30 ∧ t = .null) ∨ (b = 0x3C ∧ t = .undefined) ∨
      (b = 0x34 ∧ t = .bool false) ∨ (b = 0x38 ∧ t = .bool true)) : SlotBytes F (SizedValue.newNarrow b 0) t := by
  obtain ⟨⟨ty, h1⟩, h2, h3⟩ := constant_slot (F := F) h
  refine ⟨h3, ⟨ty, h1 _⟩, fun _ => ⟨ty, ?_⟩⟩
  show ScalarBytes F [b &&& 0xBF, 0] ty t
  rw [and_bf_small b h2]; exact h1 _

theorem constant_written {b : UInt8} {t : Tree} (h : (b = 0x30 ∧ t = .null) ∨ (b = 0x3C ∧ t = .undefined) ∨
      (b = 0x34 ∧ t = .bool false) ∨ (b = 0x38 ∧ t = .bool true)) {buf : Nat} (hb : 2 ≤ buf) :
    ∃ bs ty, writeConstant b buf false = some bs ∧ bs.length = 2 ∧ ScalarBytes F bs ty t := by
  obtain ⟨⟨ty, h1⟩, h2, h3⟩ := constant_slot (F := F) h
  refine ⟨[b, 0], ty, ?_, rfl, h1 _⟩
  unfold writeConstant
  simp only [Bool.false_eq_true, if_false]
  rw [if_neg (by omega)]

/-! ## Strings and data -/

theorem writeData_buf (tag : UInt8) (s : List UInt8) {buf buf' : Nat} (h : dataSize s.length ≤ buf)
    (h' : dataSize s.length ≤ buf') : writeData tag s buf false = writeData tag s buf' false := by
  unfold writeData
  rw [if_neg (by omega), if_neg (by omega)]
  unfold writeString
  match s with
  | [] => simp
  | [c] => simp
  | c :: c' :: s => rfl

/-- Tiny strings and data in a wide slot; a narrow slot is where they go wrong (`Props.C02`). -/
theorem data_slot (d : Bool) {s : List UInt8} (hu : d = false → validUtf8 s = true) {sv : SizedValue}
    (hs : dataSized (if d then 0x50 else 0x40) s = some sv) :
    SlotBytes F sv (if d then .data s else .str s) ∧ 64 ≤ sv.b0.toNat ∧ s.length ≤ 1 := by
  match s, hs with
  | [], hs =>
    simp only [dataSized, Option.some.injEq] at hs
    subst hs
    obtain ⟨hty, hc⟩ := fromByte_tag d 0
    have e : ((if d then 0x50 else 0x40 : UInt8) ||| UInt8.ofNat (0 : Fin 16).val) = if d then 0x50 else 0x40 := by
      cases d <;> decide
    have hb := tag_toNat d 0
    rw [e] at hty hc hb
    have h64 : 64 ≤ (if d then 0x50 else 0x40 : UInt8).toNat := by cases d <;> decide
    refine ⟨⟨?_, ⟨_, data_bytes d rfl hty (by simp [SizedValue.bytes]) hu
      (by simp [dataSize, SizedValue.bytes]) (.short (s := []) (pad := [0, 0, 0]) (by simp) hb) ?_⟩, ?_⟩, h64, by simp⟩
    · simp only [SizedValue.type, SizedValue.newNarrow]
      rw [hty]; cases d <;> simp
    · intro m v hv
      exact getData_small (s := []) (tl := [0, 0, 0]) hc (by simp) (by simp) hv
    · intro hlt; simp only [SizedValue.newNarrow] at hlt; omega
  | [c], hs =>
    simp only [dataSized, Option.some.injEq] at hs
    subst hs
    obtain ⟨hty, hc⟩ := fromByte_tag d 1
    have e : UInt8.ofNat (1 : Fin 16).val = 1 := by decide
    have hb := tag_toNat d 1
    rw [e] at hty hc hb
    have h64 : 64 ≤ ((if d then 0x50 else 0x40 : UInt8) ||| 1).toNat := by cases d <;> decide
    refine ⟨⟨?_, ⟨_, data_bytes d rfl hty (by simp [SizedValue.bytes]) hu
      (by simp [dataSize, SizedValue.bytes]) (.short (s := [c]) (pad := [0, 0]) (by simp) hb) ?_⟩, ?_⟩, h64, by simp⟩
    · simp only [SizedValue.type, SizedValue.newNarrow]
      rw [hty]; cases d <;> simp
    · intro m v hv
      exact getData_small (s := [c]) (tl := [0, 0]) hc (by simp) (by simp) hv
    · intro hlt; simp only [SizedValue.newNarrow] at hlt; omega

/-! ## All of them -/

theorem shortRange_i8 (n : Int8) : ShortRange n.toInt := by
  have h1 := n.toInt_lt; have h2 := n.le_toInt
  exact ⟨by omega, by omega⟩

theorem drop_type {p : List UInt8 → ValueType → Prop} {q r : List UInt8 → Prop} {s : ValueType → Prop}
    (h : ∃ bs ty, q bs ∧ r bs ∧ p bs ty ∧ s ty) : ∃ bs ty, q bs ∧ r bs ∧ p bs ty := by
  obtain ⟨bs, ty, h1, h2, h3, _⟩ := h
  exact ⟨bs, ty, h1, h2, h3⟩

/-- A surviving scalar is written in exactly its announced size and reads back. -/
theorem Scalar.writeTo_ok (dbg : Bool) {x : Scalar} (hx : x.Survives) {buf : Nat} (hb : x.size ≤ buf) :
    ∃ bs ty, x.writeTo dbg buf false = .ok (some bs) ∧ bs.length = x.size ∧ ScalarBytes F bs ty (x.tree F) := by
  cases x with
  | i8 n => exact drop_type (writeSigned16_ok (shortRange_i8 n) hb _)
  | i16 n => exact drop_type (writeSigned16_ok hx hb _)
  | i32 n =>
    simp only [Scalar.writeTo, Scalar.depth, writeSigned64_eq, bmod16_of_short hx]
    exact drop_type (writeSigned16_ok hx hb _)
  | i64 n =>
    simp only [Scalar.writeTo, Scalar.depth, writeSigned64_eq, bmod16_of_short hx]
    exact drop_type (writeSigned16_ok hx hb _)
  | u8 n => exact writeU16_ok dbg (by have := n.toNat_lt; omega) hb
  | u16 n => exact writeU16_ok dbg hx hb
  | u32 n =>
    have := n.toNat_lt
    refine writeU64_ok dbg (by omega) ?_ hb
    rcases Nat.lt_or_ge 2047 n.toNat with h | h
    · exact .inr (wordKept_u32 (by omega) (by omega))
    · exact .inl h
  | u64 n => exact writeU64_ok dbg n.toNat_lt hx hb
  | f32 b =>
    refine ⟨_, _, ?_, ?_, float_bytes b⟩
    · simp only [Scalar.writeTo, Scalar.size] at hb ⊢
      rw [if_neg (by omega)]
    · simp [leBytes_length, Scalar.size]
  | f64 b =>
    refine ⟨_, _, ?_, ?_, double_bytes b⟩
    · simp only [Scalar.writeTo, Scalar.size] at hb ⊢
      rw [if_neg (by omega)]
    · simp [leBytes_length, Scalar.size]
  | bool b =>
    obtain ⟨bs, ty, h1, h2, h3⟩ := constant_written (F := F) (b := if b then 0x38 else 0x34) (t := .bool b)
      (by cases b <;> simp) hb
    exact ⟨bs, ty, by simp only [Scalar.writeTo, h1], h2, h3⟩
  | null =>
    obtain ⟨bs, ty, h1, h2, h3⟩ := constant_written (F := F) (b := 0x30) (t := .null) (by simp) hb
    exact ⟨bs, ty, by simp only [Scalar.writeTo, h1], h2, h3⟩
  | undefined =>
    obtain ⟨bs, ty, h1, h2, h3⟩ := constant_written (F := F) (b := 0x3C) (t := .undefined) (by simp) hb
    exact ⟨bs, ty, by simp only [Scalar.writeTo, h1], h2, h3⟩
  | str s =>
    obtain ⟨bs, h1, h2, h3⟩ := writeData_ok (F := F) false s.bytes hx (fun _ => s.valid)
    refine ⟨bs, _, ?_, h2, h3⟩
    show writeData 0x40 s.bytes buf false = _
    rw [writeData_buf _ _ hb (Nat.le_refl _)]; exact h1
  | data d =>
    obtain ⟨bs, h1, h2, h3⟩ := writeData_ok (F := F) true d hx (fun h => by cases h)
    refine ⟨bs, _, ?_, h2, h3⟩
    show writeData 0x50 d buf false = _
    rw [writeData_buf _ _ hb (Nat.le_refl _)]; exact h1

theorem i16Sized_slot {n : Int} (h : ShortRange n) {s : SizedValue} (hs : i16Sized n = some s) :
    SlotBytes F s (.int n) ∧ s.b0.toNat < 64 := by
  obtain ⟨b0, b1, hs', h16, hv⟩ := i16Sized_ok h
  rw [hs'] at hs; cases hs
  have := short_slot (F := F) (b1 := b1) h16
  rw [hv] at this
  exact ⟨this, by show b0.toNat < 64; omega⟩

theorem u16Sized_slot {n : Nat} (h : n ≤ 2047) {s : SizedValue} (hs : u16Sized n = some s) :
    SlotBytes F s (.int n) ∧ s.b0.toNat < 64 := by
  obtain ⟨b0, b1, hs', h8, hv⟩ := u16Sized_ok h
  rw [hs'] at hs; cases hs
  have := short_slot (F := F) (b1 := b1) (show b0.toNat < 16 by omega)
  rw [hv, short12_small h] at this
  exact ⟨this, by show b0.toNat < 64; omega⟩

theorem i64Sized_eq (n : Int) : i64Sized n = i16Sized (Int.bmod n (2 ^ 16)) := by
  unfold i64Sized; rw [if_pos (by omega)]

/-- A surviving scalar kept inline reads back from its slot, except tiny strings and data in narrow slots. -/
theorem Scalar.toSized_ok {x : Scalar} (hx : x.Survives) {s : SizedValue} (hs : x.toSized = some s) :
    SlotBytes F s (x.tree F) ∧ (¬ x.Tiny → s.b0.toNat < 64) := by
  cases x with
  | i8 n => exact (i16Sized_slot (shortRange_i8 n) hs).imp id fun h _ => h
  | i16 n => exact (i16Sized_slot hx hs).imp id fun h _ => h
  | i32 n =>
    simp only [Scalar.toSized, i64Sized_eq, bmod16_of_short hx] at hs
    exact (i16Sized_slot hx hs).imp id fun h _ => h
  | i64 n =>
    simp only [Scalar.toSized, i64Sized_eq, bmod16_of_short hx] at hs
    exact (i16Sized_slot hx hs).imp id fun h _ => h
  | u8 n => exact (u16Sized_slot (by have := n.toNat_lt; omega) hs).imp id fun h _ => h
  | u16 n => exact (u16Sized_slot hx hs).imp id fun h _ => h
  | u32 n =>
    simp only [Scalar.toSized] at hs
    split at hs
    · next h => exact (u16Sized_slot h hs).imp id fun h _ => h
    · cases hs
  | u64 n =>
    simp only [Scalar.toSized] at hs
    split at hs
    · next h => exact (u16Sized_slot h hs).imp id fun h _ => h
    · cases hs
  | f32 b => cases hs
  | f64 b => cases hs
  | bool b =>
    simp only [Scalar.toSized, Option.some.injEq] at hs; subst hs
    exact ⟨constant_sized (by cases b <;> simp [Scalar.tree]), fun _ => by cases b <;> decide⟩
  | null =>
    simp only [Scalar.toSized, Option.some.injEq] at hs; subst hs
    exact ⟨constant_sized (by simp [Scalar.tree]), fun _ => by decide⟩
  | undefined =>
    simp only [Scalar.toSized, Option.some.injEq] at hs; subst hs
    exact ⟨constant_sized (by simp [Scalar.tree]), fun _ => by decide⟩
  | str st =>
    obtain ⟨h1, h2, h3⟩ := data_slot (F := F) false (fun _ => st.valid) hs
    exact ⟨h1, fun ht => absurd h3 ht⟩
  | data d =>
    obtain ⟨h1, h2, h3⟩ := data_slot (F := F) true (fun h => by cases h) hs
    exact ⟨h1, fun ht => absurd h3 ht⟩

end

end Fleece
