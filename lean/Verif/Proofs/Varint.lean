import Verif.Proofs.Bytes

/-! # Varints: lemmas -/

namespace Fleece.Varint

theorem writeGo_length_pos (f v : Nat) (hf : 0 < f) : 0 < (writeGo f v).length := by
  cases f with
  | zero => omega
  | succ f => simp only [writeGo]; split <;> simp

theorem shr7 (v : Nat) : v >>> 7 = v / 128 := by simp [Nat.shiftRight_eq_div_pow]

theorem writeGo_length_le (f v : Nat) : (writeGo f v).length ≤ f := by
  induction f generalizing v with
  | zero => simp [writeGo]
  | succ f ih =>
    simp only [writeGo]; split
    · simp; exact ih _
    · simp

/-- More fuel than needed changes nothing: the loop ends by itself. -/
theorem writeGo_fuel (f g v : Nat) (hf : v < 128 ^ f) (hf0 : 0 < f) (hfg : f ≤ g) :
    writeGo f v = writeGo g v := by
  induction f generalizing g v with
  | zero => omega
  | succ f ih =>
    obtain ⟨g, rfl⟩ : ∃ g', g = g' + 1 := ⟨g - 1, by omega⟩
    simp only [writeGo]
    split
    · congr 1
      rw [shr7]
      cases f with
      | zero => omega
      | succ f =>
        apply ih
        · rw [Nat.pow_succ] at hf; omega
        · omega
        · omega
    · rfl

theorem low7 (v : Nat) : ((UInt8.ofNat (v % 256) ||| 0x80) &&& 0x7F).toNat = v % 128 := by
  rw [byte_or80_and7f, byte_and7f, toNat_ofNat_lt (by omega)]; omega

theorem or_shift {res x s : Nat} (hr : res < 2 ^ s) : res ||| (x * 2 ^ s) = res + x * 2 ^ s := by
  have := Nat.two_pow_add_eq_or_of_lt hr x
  rw [Nat.or_comm, Nat.mul_comm x, ← this]; omega

theorem pow_step {s : Nat} : 2 ^ (s + 7) = 128 * 2 ^ s := by
  rw [Nat.pow_add]; omega

/-- The read loop inverts the write loop. -/
theorem readLoop_writeGo {ε : Type} (dbg : Bool) (f v i shift res : Nat) (rest : List UInt8)
    (hf : v < 128 ^ f) (hs : shift < 64) (hr : res < 2 ^ shift) (hv : v * 2 ^ shift < 2 ^ 64)
    (hf0 : 0 < f) (hi : i < 10) (hsi : shift = 7 * i + 7) (hpos : i = 0 ∨ 0 < v) :
    readLoop (ε := ε) dbg (writeGo f v ++ rest) i shift res
      = .ok (i + 1 + (writeGo f v).length, res + v * 2 ^ shift) := by
  induction f generalizing v i shift res with
  | zero => omega
  | succ f ih =>
    have hd : (dbg && decide (64 ≤ shift)) = false := by
      have : ¬ 64 ≤ shift := by omega
      simp [this]
    have hmod : shift % 64 = shift := Nat.mod_eq_of_lt hs
    simp only [writeGo]
    split
    · rename_i hge
      simp only [List.cons_append, readLoop, hd, hmod, low7, byte_or80_ge, if_true,
        Nat.shiftLeft_eq, Bool.false_eq_true, if_false]
      have h1 : v % 128 * 2 ^ shift ≤ v * 2 ^ shift := Nat.mul_le_mul_right _ (Nat.mod_le _ _)
      rw [Nat.mod_eq_of_lt (by omega), or_shift hr]
      cases f with
      | zero => omega
      | succ f =>
        have hdm := Nat.div_add_mod v 128
        have hpow : 128 * (v >>> 7) * 2 ^ shift ≤ v * 2 ^ shift := by
          apply Nat.mul_le_mul_right; rw [shr7]; omega
        have hs7 : shift + 7 < 64 := by
          rcases Nat.lt_or_ge (shift + 7) 64 with h | h
          · exact h
          · exfalso
            have : 2 ^ 57 ≤ 2 ^ shift := Nat.pow_le_pow_right (by omega) (by omega)
            have : 128 * 2 ^ 57 ≤ v * 2 ^ shift := Nat.mul_le_mul hge this
            omega
        rw [ih (v >>> 7) (i + 1) (shift + 7)]
        · congr 2
          · simp; omega
          · rw [shr7, pow_step]
            have : v / 128 * (128 * 2 ^ shift) = (128 * (v / 128)) * 2 ^ shift := by
              rw [← Nat.mul_assoc, Nat.mul_comm (v / 128)]
            rw [this, Nat.add_assoc, ← Nat.add_mul]
            congr 2; omega
        · rw [shr7]; rw [Nat.pow_succ] at hf; omega
        · exact hs7
        · rw [pow_step]
          have : v % 128 * 2 ^ shift ≤ 127 * 2 ^ shift := Nat.mul_le_mul_right _ (by omega)
          omega
        · rw [pow_step, ← Nat.mul_assoc, Nat.mul_comm (v >>> 7) 128]; omega
        · omega
        · omega
        · omega
        · right; rw [shr7]; omega
    · rename_i hlt
      have hb : ¬ (0x80 ≤ UInt8.ofNat v) := by
        rw [byte_ge80_iff, toNat_ofNat_lt (by omega)]; omega
      have hb7 : (UInt8.ofNat v &&& 0x7F).toNat = v := by
        rw [byte_and7f, toNat_ofNat_lt (by omega)]; omega
      have hi10 : (i == maxLen) = false := by simp [maxLen]; omega
      simp only [List.cons_append, List.nil_append, readLoop, hd, hmod, hb, hb7, if_false, hi10,
        Nat.shiftLeft_eq, Bool.false_eq_true, Bool.false_and]
      rw [Nat.mod_eq_of_lt hv, or_shift hr]
      simp

theorem write_length_le (v : Nat) : (write v).length ≤ 10 := writeGo_length_le 10 v

theorem write_length_pos (v : Nat) : 0 < (write v).length := writeGo_length_pos 10 v (by omega)

/-- `read` inverts `write`, whatever follows in the buffer. -/
theorem read_write {ε : Type} (dbg : Bool) (v : Nat) (hv : v < 2 ^ 64) (rest : List UInt8) :
    read (ε := ε) dbg (write v ++ rest) = .ok ((write v).length, v) := by
  unfold write maxLen
  have hlen := writeGo_length_le 9 (v >>> 7)
  rw [show writeGo 10 v = if 0x80 ≤ v then (UInt8.ofNat (v % 256) ||| 0x80) :: writeGo 9 (v >>> 7)
    else [UInt8.ofNat v] from rfl]
  split
  · rename_i hge
    have hb : ¬ (UInt8.ofNat (v % 256) ||| 0x80) < 0x80 := by
      rw [byte_lt80_iff]; have := byte_or80_ge (UInt8.ofNat (v % 256)); rw [byte_ge80_iff] at this; omega
    simp only [List.cons_append, read, hb, if_false, low7]
    rw [List.take_append]
    have hk : (writeGo 9 (v >>> 7)).length ≤
        min ((writeGo 9 (v >>> 7) ++ rest).length + 1) (maxLen + 1) - 1 := by
      simp [maxLen]; omega
    rw [List.take_of_length_le hk, readLoop_writeGo]
    · simp [shr7]; omega
    · rw [shr7]; omega
    · omega
    · omega
    · rw [shr7]; omega
    · omega
    · omega
    · rfl
    · left; rfl
  · have hb : UInt8.ofNat v < 0x80 := by
      rw [byte_lt80_iff, toNat_ofNat_lt (by omega)]; omega
    simp only [List.cons_append, List.nil_append, read, hb, if_true]
    simp [toNat_ofNat_lt (show v < 256 by omega)]

/-- Number of bytes written. -/
theorem writeGo_length_eq (f v : Nat) (hf : v < 128 ^ f) (hf0 : 0 < f) :
    (writeGo f v).length = sizeRequired v := by
  induction f generalizing v with
  | zero => omega
  | succ f ih =>
    simp only [writeGo]
    split
    · rename_i hge
      cases f with
      | zero => omega
      | succ f =>
        rw [List.length_cons, ih (v >>> 7) (by rw [shr7]; rw [Nat.pow_succ] at hf; omega) (by omega)]
        have h0 : ¬ v = 0 := by omega
        have h1 : ¬ v >>> 7 = 0 := by rw [shr7]; omega
        have hlog : Nat.log2 v = Nat.log2 (v >>> 7) + 7 := by
          rw [Nat.log2_eq_iff h0]
          have hself := (Nat.log2_eq_iff h1 (k := Nat.log2 (v >>> 7))).mp rfl
          rw [shr7] at hself ⊢
          constructor
          · have := hself.1; rw [Nat.pow_add]; omega
          · have := hself.2
            rw [show Nat.log2 (v / 128) + 7 + 1 = (Nat.log2 (v / 128) + 1) + 7 by omega, Nat.pow_add]
            omega
        simp only [sizeRequired, beq_iff_eq, h0, h1, if_false, hlog]; omega
    · rename_i hlt
      simp only [List.length_cons, List.length_nil, sizeRequired, beq_iff_eq]
      split
      · rfl
      · have : Nat.log2 v < 7 := by
          rw [Nat.log2_lt (by omega)]; omega
        omega

theorem write_length_eq (v : Nat) (hv : v < 2 ^ 64) : (write v).length = sizeRequired v :=
  writeGo_length_eq 10 v (by omega) (by omega)

end Fleece.Varint
