import Verif.Proofs.Holds
import Verif.Model.Encodable
import Verif.Props.C01

/-! # The encodings of single values are read back -/

namespace Fleece
open Res Spec

/-! ## Bytes -/

theorem leBytes_length (n v : Nat) : (leBytes n v).length = n := by
  induction n generalizing v with
  | zero => rfl
  | succ n ih => simp [leBytes, ih]

theorem leNat_leBytes (n v : Nat) : leNat (leBytes n v) = v % 256 ^ n := by
  induction n generalizing v with
  | zero => simp [leBytes, leNat, Nat.mod_one]
  | succ n ih =>
    simp only [leBytes, leNat, ih, UInt8.toNat_ofNat']
    rw [Nat.pow_succ 256 n, Nat.mul_comm (256 ^ n) 256, Nat.mod_mul]

theorem leNat_lt (bs : List UInt8) : leNat bs < 256 ^ bs.length := by
  induction bs with
  | nil => simp [leNat]
  | cons b bs ih =>
    simp only [leNat, List.length_cons, Nat.pow_succ]
    have := byte_lt b
    omega

theorem littleEndian_eq (bs : List UInt8) : littleEndian bs = leNat bs := by
  induction bs with
  | nil => rfl
  | cons b bs ih =>
    show littleEndian bs * 256 + b.toNat = _
    rw [ih]; simp only [leNat]; omega

section
variable {F : FloatOps}

/-- Constants. -/
theorem constant_bytes {b c : UInt8} {tl : List UInt8} {ty : ValueType} {t : Tree}
    (h : (b = 0x30 ∧ ty = .null ∧ t = .null) ∨ (b = 0x3C ∧ ty = .undefined ∧ t = .undefined) ∨
      (b = 0x34 ∧ ty = .false ∧ t = .bool false) ∨ (b = 0x38 ∧ ty = .true ∧ t = .bool true)) :
    ScalarBytes F (b :: c :: tl) ty t := by
  have e1 : ValueType.fromByte 0x30 = .null := by decide
  have e2 : ValueType.fromByte 0x3C = .undefined := by decide
  have e3 : ValueType.fromByte 0x34 = .false := by decide
  have e4 : ValueType.fromByte 0x38 = .true := by decide
  have hty : ValueType.fromByte b = ty := by
    rcases h with ⟨rfl, rfl, _⟩ | ⟨rfl, rfl, _⟩ | ⟨rfl, rfl, _⟩ | ⟨rfl, rfl, _⟩ <;> assumption
  refine ⟨by simp, ?_, ?_, ?_, ?_, ?_⟩
  · rcases h with ⟨rfl, rfl, _⟩ | ⟨rfl, rfl, _⟩ | ⟨rfl, rfl, _⟩ | ⟨rfl, rfl, _⟩ <;> rfl
  · intro m v hv; rw [hv.type, hty]
  · intro m v hv
    refine ⟨2, ?_, by simp⟩
    simp only [Val.requiredSize, hv.type, hty, ok_bind]
    rcases h with ⟨rfl, rfl, _⟩ | ⟨rfl, rfl, _⟩ | ⟨rfl, rfl, _⟩ | ⟨rfl, rfl, _⟩ <;> rfl
  · intro m v scope f hv
    simp only [readTree, hv.type, hty, ok_bind]
    rcases h with ⟨rfl, rfl, rfl⟩ | ⟨rfl, rfl, rfl⟩ | ⟨rfl, rfl, rfl⟩ | ⟨rfl, rfl, rfl⟩ <;> rfl
  · rcases h with ⟨rfl, _, rfl⟩ | ⟨rfl, _, rfl⟩ | ⟨rfl, _, rfl⟩ | ⟨rfl, _, rfl⟩ <;> constructor

theorem fromByte_short (b : UInt8) (h : b.toNat < 16) : ValueType.fromByte b = .short := by
  revert h b; exact forall_byte (by decide +kernel)

/-- The sign extension of 12 bits. -/
def short12 (u : Nat) : Int := if u < 2048 then (u : Int) else (u : Int) - 4096

theorem short12_table : ∀ a : Fin 16, ∀ b : Fin 256,
    (if (a.val * 256 + b.val) &&& 0x0800 ≠ 0 then
      Int.bmod (((a.val * 256 + b.val) ||| 0xF000 : Nat) : Int) (2 ^ 16) else ((a.val * 256 + b.val : Nat) : Int)) =
      short12 (a.val * 256 + b.val) := by
  decide +kernel

/-- Shorts. -/
theorem short_bytes {b0 b1 : UInt8} {tl : List UInt8} (h : b0.toNat < 16) :
    ScalarBytes F (b0 :: b1 :: tl) .short (.int (short12 (b0.toNat * 256 + b1.toNat))) := by
  have hty := fromByte_short b0 h
  refine ⟨by simp, rfl, ?_, ?_, ?_, ?_⟩
  · intro m v hv; rw [hv.type, hty]
  · intro m v hv
    refine ⟨2, ?_, by simp⟩
    simp only [Val.requiredSize, hv.type, hty, ok_bind]; rfl
  · intro m v scope f hv
    have hs : v.shortInt m = .ok (short12 (b0.toNat * 256 + b1.toNat)) := by
      have := byte_lt b1
      have ht := short12_table ⟨b0.toNat, h⟩ ⟨b1.toNat, byte_lt b1⟩
      simp only at ht
      simp only [Val.shortInt, hv.getShort, ok_bind, byte_and0f, Nat.mod_eq_of_lt h]
      rw [← ht]
      split <;> rfl
    simp only [readTree, hv.type, hty, ok_bind, Val.toInt, hs, pure_eq]
  · exact .int (by simp) (.short rfl h rfl) fun ⟨b, hb, h1, _⟩ => by cases hb; omega

theorem fromByte_float : ValueType.fromByte 0x20 = .float := by decide
theorem fromByte_double : ValueType.fromByte 0x28 = .double64 := by decide

/-- 32-bit floats. -/
theorem float_bytes (bits : UInt32) :
    ScalarBytes F (0x20 :: 0 :: leBytes 4 bits.toNat) .float (.float (F.widen bits)) := by
  have hbits : UInt32.ofNat (littleEndian (leBytes 4 bits.toNat)) = bits := by
    rw [littleEndian_eq, leNat_leBytes, show (256 : Nat) ^ 4 = 2 ^ 32 from rfl, Nat.mod_eq_of_lt bits.toNat_lt]; simp
  have form := Format.Scalar.float (F := F) (neg := False) (b := 0x20) (x := 0) (d := leBytes 4 bits.toNat) (pad := [])
    (by decide) (by simp [leBytes_length])
  rw [hbits, List.append_nil] at form
  refine ⟨by simp, rfl, ?_, ?_, ?_, form⟩
  · intro m v hv; rw [hv.type, fromByte_float]
  · intro m v hv
    refine ⟨6, ?_, by simp [leBytes_length]⟩
    simp only [Val.requiredSize, hv.type, fromByte_float, ok_bind]; rfl
  · intro m v scope f hv
    have hs := hv.slice (a := 2) (b := 6) (by omega) (by simp [leBytes_length])
    simp only [readTree, hv.type, fromByte_float, ok_bind, Val.toDouble, Val.floatBits, hs, pure_eq,
      Bool.false_eq_true, if_false]
    rw [List.take_of_length_le (by simp [leBytes_length])]
    simp only [List.drop_succ_cons, List.drop_zero, leNat_leBytes]
    congr 2
    rw [show (256 : Nat) ^ 4 = 2 ^ 32 from rfl, Nat.mod_eq_of_lt bits.toNat_lt]
    simp

/-- 64-bit floats. -/
theorem double_bytes (bits : UInt64) :
    ScalarBytes F ((0x20 ||| 0x08) :: 0 :: leBytes 8 bits.toNat) .double64 (.float bits) := by
  rw [show (0x20 ||| 0x08 : UInt8) = 0x28 by decide]
  have hbits : UInt64.ofNat (littleEndian (leBytes 8 bits.toNat)) = bits := by
    rw [littleEndian_eq, leNat_leBytes, show (256 : Nat) ^ 8 = 2 ^ 64 from rfl, Nat.mod_eq_of_lt bits.toNat_lt]; simp
  have form := Format.Scalar.double (F := F) (neg := False) (b := 0x28) (x := 0) (d := leBytes 8 bits.toNat) (pad := [])
    (by decide) (by simp [leBytes_length])
  rw [hbits, List.append_nil] at form
  refine ⟨by simp, rfl, ?_, ?_, ?_, form⟩
  · intro m v hv; rw [hv.type, fromByte_double]
  · intro m v hv
    refine ⟨10, ?_, by simp [leBytes_length]⟩
    simp only [Val.requiredSize, hv.type, fromByte_double, ok_bind]; rfl
  · intro m v scope f hv
    have hs := hv.slice (a := 2) (b := 10) (by omega) (by simp [leBytes_length])
    simp only [readTree, hv.type, fromByte_double, ok_bind, Val.toDouble, Val.floatBits, hs, pure_eq, if_true]
    rw [List.take_of_length_le (by simp [leBytes_length])]
    simp only [List.drop_succ_cons, List.drop_zero, leNat_leBytes]
    congr 2
    rw [show (256 : Nat) ^ 8 = 2 ^ 64 from rfl, Nat.mod_eq_of_lt bits.toNat_lt]
    simp

theorem uint_header : ∀ c : Fin 8, ValueType.fromByte (0x10 ||| 0x08 ||| UInt8.ofNat c.val) = .unsignedInt ∧
    ((0x10 ||| 0x08 ||| UInt8.ofNat c.val) &&& 0x07).toNat = c.val ∧
    0x10 ||| 0x08 ||| UInt8.ofNat c.val = UInt8.ofNat (24 + c.val) := by
  decide +kernel

/-- Unsigned integers of `count` bytes. -/
theorem uint_bytes {count n : Nat} (h1 : 1 ≤ count) (h8 : count ≤ 8) :
    ScalarBytes F ((0x10 ||| 0x08 ||| UInt8.ofNat (count - 1)) :: leBytes count n) .unsignedInt
      (.int ((n % 256 ^ count : Nat) : Int)) := by
  obtain ⟨hty, hc, hb0⟩ := uint_header ⟨count - 1, by omega⟩
  simp only at hty hc hb0
  generalize (0x10 ||| 0x08 ||| UInt8.ofNat (count - 1) : UInt8) = b0 at hty hc hb0 ⊢
  have hstores := Stores.unsigned (data := b0 :: leBytes count n) (pos := 0) (c := count - 1) (bs := leBytes count n) (by omega)
    (by rw [hb0]; rfl) (by rw [leBytes_length]; omega) (by simp)
  rw [littleEndian_eq, leNat_leBytes] at hstores
  refine ⟨by simp [leBytes_length]; omega, rfl, ?_, ?_, ?_, .int (by simp [leBytes_length]; omega) hstores
    fun _ h => by omega⟩
  · intro m v hv; rw [hv.type, hty]
  · intro m v hv
    refine ⟨2 + (count - 1), ?_, by simp [leBytes_length]; omega⟩
    simp only [Val.requiredSize, hv.type, hty, ok_bind, hv.byte (i := 0) (b := b0) rfl, hc]; rfl
  · intro m v scope f hv
    have hr := hv.rawRead (a := 1) (n := count) (by simp [leBytes_length]; omega)
    simp only [List.drop_succ_cons, List.drop_zero] at hr
    rw [List.take_of_length_le (by simp [leBytes_length])] at hr
    simp only [readTree, hv.type, hty, ok_bind, Val.toUnsignedInt, Val.toInt, hv.byte (i := 0) (b := b0) rfl, hc,
      pure_eq]
    rw [Nat.sub_add_cancel h1, hr]
    simp only [ok_bind, leNat_leBytes]
    have : n % 256 ^ count < 2 ^ 64 := by
      have h1 : n % 256 ^ count < 256 ^ count := Nat.mod_lt _ (Nat.pow_pos (by omega))
      have h2 : 256 ^ count ≤ 256 ^ 8 := Nat.pow_le_pow_right (by omega) h8
      omega
    generalize n % 256 ^ count = k at this ⊢
    have h2 : (Int.bmod (k : Int) (2 ^ 64)) % (2 ^ 64 : Int) = k := by
      rw [Int.bmod_def]; split <;> omega
    rw [h2]; simp

theorem fromByte_tag (d : Bool) : ∀ c : Fin 16,
    ValueType.fromByte ((if d then 0x50 else 0x40) ||| UInt8.ofNat c.val) = (if d then .data else .string) ∧
    (((if d then 0x50 else 0x40 : UInt8) ||| UInt8.ofNat c.val) &&& 0x0F).toNat = c.val := by
  revert d; decide +kernel

/-- What `getData` returns on the encoding of a string. -/
theorem getData_small {m : Mem} {v : Val} {b0 : UInt8} {s tl : List UInt8} (hb : (b0 &&& 0x0F).toNat = s.length)
    (hs : s.length ≤ 14) (h2 : 2 ≤ (b0 :: (s ++ tl)).length) (hv : Holds m v (b0 :: (s ++ tl))) :
    v.getData m = .ok s := by
  have hl := hv.le
  unfold Val.getData
  rw [if_neg (by simp at h2 hl ⊢; omega)]
  simp only [hv.byte (i := 0) (b := b0) rfl, ok_bind, hb]
  rw [if_neg (by omega)]
  rw [hv.slice (by omega) (by simp; omega)]
  simp

theorem getData_big {m : Mem} {v : Val} {b0 : UInt8} {s : List UInt8} (hb : (b0 &&& 0x0F).toNat = 15)
    (hs : s.length < 2 ^ 63) (hv : Holds m v (b0 :: (Varint.write s.length ++ s))) : v.getData m = .ok s := by
  have hl := hv.le
  have hw1 := Varint.write_length_pos s.length
  have hw2 := Varint.write_length_le s.length
  simp only [List.length_cons, List.length_append] at hl
  unfold Val.getData
  rw [if_neg (by omega)]
  obtain ⟨rest, hrest⟩ := hv.tail (a := 1) (by simp)
  simp only [List.drop_succ_cons, List.drop_zero, List.append_assoc] at hrest
  simp only [hv.byte (i := 0) (b := b0) rfl, ok_bind, hb, if_true, pure_eq, hrest]
  rw [Varint.read_write _ _ (by omega)]
  simp only [ok_bind]
  rw [if_neg (by omega)]
  have : usizeAdd (ε := DecodeError) m.dbg (1 + (Varint.write s.length).length) s.length =
      .ok (1 + (Varint.write s.length).length + s.length) := by
    unfold usizeAdd; rw [if_pos (by omega)]
  simp only [this, ok_bind]
  rw [hv.slice (by omega) (by simp; omega)]
  congr 1
  rw [show 1 + (Varint.write s.length).length = (Varint.write s.length).length + 1 by omega, List.drop_succ_cons,
    List.drop_left' rfl, List.take_of_length_le (by omega)]

/-- A tag and a body `getData` understands make a value. -/
theorem data_bytes (d : Bool) {bs s : List UInt8} {b0 : UInt8} (h0 : bs[0]? = some b0)
    (hty : ValueType.fromByte b0 = (if d then .data else .string)) (h2 : 2 ≤ bs.length)
    (hu : d = false → validUtf8 s = true)
    (hsize : dataSize s.length ≤ bs.length) (hform : Format.Counted (if d then 5 else 4) s bs)
    (hd : ∀ m v, Holds m v bs → v.getData m = .ok s) :
    ScalarBytes F bs (if d then .data else .string) (if d then .data s else .str s) := by
  obtain ⟨tl, rfl⟩ : ∃ tl, bs = b0 :: tl := by
    cases bs with
    | nil => simp at h0
    | cons b tl => simp at h0; exact ⟨tl, by rw [h0]⟩
  refine ⟨h2, by cases d <;> rfl, ?_, ?_, ?_, ?_⟩
  · intro m v hv; rw [hv.type, hty]
  · intro m v hv
    refine ⟨dataSize s.length, ?_, hsize⟩
    simp only [Val.requiredSize, hv.type, hty, ok_bind]
    cases d <;> simp only [Bool.false_eq_true, if_false, if_true, hd m v hv, ok_bind, dataSize, pure_eq]
    all_goals
      split
      · rfl
      · split <;> rfl
  · intro m v scope f hv
    simp only [readTree, hv.type, hty, ok_bind]
    cases d
    · simp [Val.toStr, hv.type, hty, hd m v hv, hu rfl]
    · simp [Val.toData, hv.type, hty, hd m v hv]
  · cases d
    · exact .str h2 (hu rfl) hform
    · exact .data h2 hform

theorem tag_toNat (d : Bool) : ∀ c : Fin 16,
    ((if d then 0x50 else 0x40 : UInt8) ||| UInt8.ofNat c.val).toNat = (if d then 5 else 4) * 16 + c.val := by
  revert d; decide +kernel

/-- `write_fleece_string` into a buffer of the announced size. -/
theorem writeData_ok (d : Bool) (s : List UInt8) (hs : s.length < 2 ^ 63) (hu : d = false → validUtf8 s = true) :
    ∃ bs, writeData (if d then 0x50 else 0x40) s (dataSize s.length) false = .ok (some bs) ∧
      bs.length = dataSize s.length ∧
      ScalarBytes F bs (if d then .data else .string) (if d then .data s else .str s) := by
  unfold writeData
  rw [if_neg (by omega)]
  match s, hs, hu with
  | [], _, hu =>
    obtain ⟨hty, hc⟩ := fromByte_tag d 0
    refine ⟨[if d then 0x50 else 0x40, 0], by simp [writeString], by simp [dataSize], ?_⟩
    have e : ((if d then 0x50 else 0x40 : UInt8) ||| UInt8.ofNat (0 : Fin 16).val) = if d then 0x50 else 0x40 := by
      cases d <;> decide
    have hb := tag_toNat d 0
    rw [e] at hty hc hb
    refine data_bytes d rfl hty (by simp) hu (by simp [dataSize]) (.short (s := []) (pad := [0]) (by simp) hb) ?_
    intro m v hv
    exact getData_small (s := []) (tl := [0]) hc (by simp) (by simp) hv
  | [c], _, hu =>
    obtain ⟨hty, hc⟩ := fromByte_tag d 1
    have e : UInt8.ofNat (1 : Fin 16).val = 1 := by decide
    have hb := tag_toNat d 1
    rw [e] at hty hc hb
    refine ⟨[(if d then 0x50 else 0x40) ||| 1, c], by simp [writeString], by simp [dataSize], ?_⟩
    refine data_bytes d rfl hty (by simp) hu (by simp [dataSize]) (.short (s := [c]) (pad := []) (by simp) hb) ?_
    intro m v hv
    exact getData_small (s := [c]) (tl := []) hc (by simp) (by simp) hv
  | c1 :: c2 :: s, hs, hu =>
    simp only [writeString]
    generalize hg : c1 :: c2 :: s = u at hs hu ⊢
    have hu2 : 2 ≤ u.length := by rw [← hg]; simp
    by_cases hl : u.length ≤ 14
    · rw [if_pos hl]
      obtain ⟨hty, hc⟩ := fromByte_tag d ⟨u.length, by omega⟩
      have hsz : dataSize u.length = 1 + u.length := by
        unfold dataSize; rw [if_neg (by omega), if_pos (by omega)]
      refine ⟨_, rfl, by rw [hsz, List.length_cons]; omega, ?_⟩
      have hform := Format.Counted.short (s := u) (pad := []) (by omega) (tag_toNat d ⟨u.length, by omega⟩)
      rw [List.append_nil] at hform
      refine data_bytes d rfl hty (by simp; omega) hu (by rw [hsz]; simp; omega) hform ?_
      intro m v hv
      refine getData_small (s := u) (tl := []) hc (by omega) (by simp; omega) (by simpa using hv)
    · rw [if_neg hl]
      obtain ⟨hty, hc⟩ := fromByte_tag d 15
      have e : UInt8.ofNat (15 : Fin 16).val = 0x0F := by decide
      have hb := tag_toNat d 15
      rw [e] at hty hc hb
      have hform := Format.Counted.long (s := u) (pad := []) hs hb
      rw [List.append_nil, ← Props.C01_write_is_leb128 _ (by omega)] at hform
      have hsz : dataSize u.length = 1 + (Varint.write u.length).length + u.length := by
        unfold dataSize
        rw [if_neg (by omega), if_neg (by omega), Varint.write_length_eq _ (by omega)]
      refine ⟨_, rfl, by rw [hsz]; simp; omega, ?_⟩
      refine data_bytes d rfl hty (by simp; omega) hu (by rw [hsz]; simp; omega) hform ?_
      intro m v hv
      exact getData_big hc hs hv

end

end Fleece
