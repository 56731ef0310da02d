import Verif.Spec.Number
import Verif.Proofs.Scalar
import Verif.Proofs.Total

/-! # Integer conversions -/

namespace Fleece
open Res Spec

theorem fromByte_int (c : Nat) (h : c < 8) : ValueType.fromByte (UInt8.ofNat (16 + c)) = .int ∧
    ValueType.fromByte (UInt8.ofNat (24 + c)) = .unsignedInt ∧ (UInt8.ofNat (16 + c) &&& 0x07).toNat = c ∧
    (UInt8.ofNat (24 + c) &&& 0x07).toNat = c := by
  have : ∀ c : Fin 8, ValueType.fromByte (UInt8.ofNat (16 + c.val)) = .int ∧
    ValueType.fromByte (UInt8.ofNat (24 + c.val)) = .unsignedInt ∧ (UInt8.ofNat (16 + c.val) &&& 0x07).toNat = c.val ∧
    (UInt8.ofNat (24 + c.val) &&& 0x07).toNat = c.val := by decide +kernel
  exact this ⟨c, h⟩

section
variable {m : Mem} {v : Val} (F : FloatOps)

theorem byte0 (hv : v.In m) (hl : 2 ≤ v.len) {b : UInt8} (h : m.data[v.pos]? = some b) : v.byte m 0 = .ok b := by
  obtain ⟨b', h1, h2⟩ := byte_eq hv (show 0 < v.len by omega)
  rw [Nat.add_zero, h] at h1
  cases h1; exact h2

theorem type0 (hv : v.In m) (hl : 2 ≤ v.len) {b : UInt8} (h : m.data[v.pos]? = some b) :
    v.type m = .ok (ValueType.fromByte b) := by
  unfold Val.type
  rw [byte0 hv hl h]; rfl

theorem prefix_take {bs l : List UInt8} (h : bs <+: l) : l.take bs.length = bs := by
  obtain ⟨t, rfl⟩ := h
  simp

/-- What `to_int` makes of the bytes of an `Int` or `UnsignedInt`. -/
theorem word_toInt (hv : v.In m) (hl : 2 ≤ v.len) {b : UInt8} {c : Nat} {bs : List UInt8} (h0 : m.data[v.pos]? = some b)
    (ht : ValueType.fromByte b = .int ∨ ValueType.fromByte b = .unsignedInt) (hcount : (b &&& 0x07).toNat = c)
    (len : bs.length = c + 1) (h1 : bs <+: m.data.drop (v.pos + 1)) :
    v.toInt m F = .ok (Int.bmod (leNat bs) (2 ^ 64)) := by
  have hlen : v.pos + 1 + (c + 1) ≤ m.data.length := by
    have := h1.length_le
    rw [List.length_drop, len] at this
    omega
  have ht' : v.type m = .ok .int ∨ v.type m = .ok .unsignedInt := by
    rw [type0 hv hl h0]
    rcases ht with h | h <;> rw [h]
    · exact Or.inl rfl
    · exact Or.inr rfl
  have htake := prefix_take h1
  unfold Val.toInt
  rcases ht' with ht' | ht' <;>
  · rw [ht']
    simp only [ok_bind, byte0 hv hl h0, hcount]
    rw [rawRead_eq hlen]
    rw [len] at htake
    rw [htake]; rfl

theorem short_toInt (hv : v.In m) (hl : 2 ≤ v.len) {b0 b1 : UInt8} (h0 : m.data[v.pos]? = some b0) (tag : b0.toNat < 16)
    (h1 : m.data[v.pos + 1]? = some b1) : v.getShort m = .ok (b0.toNat * 256 + b1.toNat) ∧
      v.shortInt m = .ok (twos 12 (b0.toNat * 256 + b1.toNat)) := by
  obtain ⟨c0, c1, g0, g1, _, gs⟩ := getShort_bytes hv hl
  rw [h0] at g0; cases g0
  rw [h1] at g1; cases g1
  rw [byte_and0f, Nat.mod_eq_of_lt tag] at gs
  refine ⟨gs, ?_⟩
  have ht := short12_table ⟨b0.toNat, tag⟩ ⟨b1.toNat, byte_lt b1⟩
  simp only at ht
  unfold Val.shortInt
  rw [gs]
  simp only [ok_bind]
  have : twos 12 (b0.toNat * 256 + b1.toNat) = short12 (b0.toNat * 256 + b1.toNat) := rfl
  rw [this, ← ht]
  split <;> rfl

end

theorem bmod_small {n : Nat} (h : n < 2 ^ 63) : Int.bmod (n : Int) (2 ^ 64) = n := by
  unfold Int.bmod; simp only; omega

theorem bmod_large {n : Nat} (h : 2 ^ 63 ≤ n) (h2 : n < 2 ^ 64) : Int.bmod (n : Int) (2 ^ 64) = (n : Int) - 2 ^ 64 := by
  unfold Int.bmod; simp only; omega

/-- Fewer than eight bytes are no large number. -/
theorem leNat_small {bs : List UInt8} (h : bs.length ≤ 7) : leNat bs < 2 ^ 56 := by
  have h1 := leNat_lt bs
  have h2 : 256 ^ bs.length ≤ 256 ^ 7 := Nat.pow_le_pow_right (by omega) h
  have : (256 : Nat) ^ 7 = 2 ^ 56 := by decide
  omega

theorem leNat_word {bs : List UInt8} (h : bs.length ≤ 8) : leNat bs < 2 ^ 64 := by
  have h1 := leNat_lt bs
  have h2 : 256 ^ bs.length ≤ 256 ^ 8 := Nat.pow_le_pow_right (by omega) h
  have : (256 : Nat) ^ 8 = 2 ^ 64 := by decide
  omega

theorem twos_nonneg {bits n : Nat} (hn : n < 2 ^ bits) (h : 0 ≤ twos bits n) : twos bits n = n := by
  unfold twos at h ⊢
  split
  · rfl
  · rename_i hlt
    rw [if_neg hlt] at h
    have : (n : Int) < (2 ^ bits : Nat) := by exact_mod_cast hn
    push_cast at this
    omega

/-- `to_int` of a stored integer, in all cases. -/
theorem stores_toInt {m : Mem} {v : Val} (F : FloatOps) {z : Int} (hv : v.In m) (hl : 2 ≤ v.len) (h : Stores m.data v.pos z) :
    (v.type m = .ok .short ∧ v.toInt m F = .ok z ∧ v.shortInt m = .ok z ∧ -2048 ≤ z ∧ z < 2048 ∧
      v.getShort m = .ok (z % 4096).toNat ∧ ¬ Narrow m.data v.pos ∧ ¬ Unsigned m.data v.pos) ∨
    (∃ c, c < 8 ∧ v.type m = .ok .int ∧ ¬ Unsigned m.data v.pos ∧ (Narrow m.data v.pos ↔ c < 7) ∧
      -2 ^ (8 * c + 7) ≤ z ∧ z < 2 ^ (8 * c + 7) ∧
      v.toInt m F = .ok (if c < 7 ∧ z < 0 then z + 2 ^ (8 * (c + 1)) else z)) ∨
    (v.type m = .ok .unsignedInt ∧ Unsigned m.data v.pos ∧ ¬ Narrow m.data v.pos ∧ 0 ≤ z ∧ z < 2 ^ 64 ∧
      v.toInt m F = .ok (if z < 2 ^ 63 then z else z - 2 ^ 64)) := by
  have hbyte : ∀ n, n < 256 → (UInt8.ofNat n).toNat = n := fun n hn => by
    rw [UInt8.toNat_ofNat']; exact Nat.mod_eq_of_lt hn
  cases h with
  | @short b0 b1 h0 tag h1 =>
    left
    obtain ⟨hg, hs⟩ := short_toInt hv hl h0 tag h1
    have ht := type0 hv hl h0
    rw [fromByte_short b0 tag] at ht
    have hb1 := byte_lt b1
    have hlt : b0.toNat * 256 + b1.toNat < 4096 := by omega
    have hz : twos 12 (b0.toNat * 256 + b1.toNat) = if b0.toNat * 256 + b1.toNat < 2048 then
        ((b0.toNat * 256 + b1.toNat : Nat) : Int) else ((b0.toNat * 256 + b1.toNat : Nat) : Int) - 4096 := rfl
    refine ⟨ht, ?_, hs, ?_, ?_, ?_, ?_, ?_⟩
    · unfold Val.toInt; rw [ht]; exact hs
    · rw [hz]; split <;> omega
    · rw [hz]; split <;> omega
    · rw [hg]; congr 1; rw [hz]; split <;> omega
    · rintro ⟨b, hb, _⟩; rw [h0] at hb; cases hb; omega
    · rintro ⟨b, hb, _⟩; rw [h0] at hb; cases hb; omega
  | @int c bs hc h0 len h1 =>
    right; left
    obtain ⟨ft, _, hcount, _⟩ := fromByte_int c hc
    have ht := type0 hv hl h0
    rw [ft] at ht
    have hi := word_toInt F hv hl h0 (Or.inl ft) hcount len h1
    have hb := hbyte (16 + c) (by omega)
    have hlt := leNat_lt bs
    rw [len, show (256 : Nat) = 2 ^ 8 from rfl, ← Nat.pow_mul] at hlt
    have hpow : (2 : Nat) ^ (8 * (c + 1)) = 2 * 2 ^ (8 * c + 7) := by
      rw [show 8 * (c + 1) = (8 * c + 7) + 1 by omega, Nat.pow_succ]; omega
    have hpow' : (2 : Int) ^ (8 * (c + 1)) = 2 * 2 ^ (8 * c + 7) := by
      have := congrArg (Int.ofNat) hpow
      simpa using this
    rw [littleEndian_eq]
    have hlti : ((leNat bs : Nat) : Int) < 2 * 2 ^ (8 * c + 7) := by
      have : (leNat bs : Int) < ((2 ^ (8 * (c + 1)) : Nat) : Int) := by exact_mod_cast hlt
      rw [hpow] at this; push_cast at this; exact this
    have hz : twos (8 * (c + 1)) (leNat bs) = if leNat bs < 2 ^ (8 * c + 7) then (leNat bs : Int)
        else (leNat bs : Int) - 2 * 2 ^ (8 * c + 7) := by
      unfold twos
      rw [show 8 * (c + 1) - 1 = 8 * c + 7 by omega, hpow']
    have hcast : (leNat bs < 2 ^ (8 * c + 7)) ↔ (leNat bs : Int) < 2 ^ (8 * c + 7) := by
      constructor
      · intro h
        have : (leNat bs : Int) < ((2 ^ (8 * c + 7) : Nat) : Int) := by exact_mod_cast h
        push_cast at this; exact this
      · intro h
        have h' : (leNat bs : Int) < ((2 ^ (8 * c + 7) : Nat) : Int) := by push_cast; exact h
        exact_mod_cast h'
    have hpos : (0 : Int) ≤ leNat bs := Int.natCast_nonneg _
    refine ⟨c, hc, ht, ?_, ?_, ?_, ?_, ?_⟩
    · rintro ⟨b, hb', _⟩; rw [h0] at hb'; cases hb'; omega
    · constructor
      · rintro ⟨b, hb', _⟩; rw [h0] at hb'; cases hb'; omega
      · intro _; exact ⟨_, h0, by omega, by omega⟩
    · rw [hz]
      split
      · generalize (2 : Int) ^ (8 * c + 7) = p at *; omega
      · rename_i hh; rw [hcast] at hh; generalize (2 : Int) ^ (8 * c + 7) = p at *; omega
    · rw [hz]
      split
      · rename_i hh; exact hcast.mp hh
      · generalize (2 : Int) ^ (8 * c + 7) = p at *; omega
    · rw [hi, hz]
      refine congrArg Res.ok ?_
      by_cases hlt2 : leNat bs < 2 ^ (8 * c + 7)
      · rw [if_pos hlt2, if_neg (by omega)]
        apply bmod_small
        have : (2 : Nat) ^ (8 * c + 7) ≤ 2 ^ 63 := Nat.pow_le_pow_right (by omega) (by omega)
        omega
      · rw [if_neg hlt2]
        rw [hcast] at hlt2
        by_cases hc7 : c < 7
        · rw [if_pos ⟨hc7, by generalize (2 : Int) ^ (8 * c + 7) = p at *; omega⟩, hpow']
          rw [bmod_small (by have := leNat_small (bs := bs) (by omega); omega)]
          omega
        · have : c = 7 := by omega
          subst this
          rw [if_neg (by omega)]
          rw [bmod_large]
          · rfl
          · have : ¬ ((leNat bs : Int) < 2 ^ 63) := hlt2
            omega
          · exact leNat_word (by omega)
  | @unsigned c bs hc h0 len h1 =>
    right; right
    obtain ⟨_, ft, _, hcount⟩ := fromByte_int c hc
    have ht := type0 hv hl h0
    rw [ft] at ht
    have hi := word_toInt F hv hl h0 (Or.inr ft) hcount len h1
    have hb := hbyte (24 + c) (by omega)
    have hlt := leNat_word (bs := bs) (by omega)
    rw [littleEndian_eq]
    refine ⟨ht, ⟨_, h0, by omega, by omega⟩, ?_, by omega, by omega, ?_⟩
    · rintro ⟨b, hb', _⟩; rw [h0] at hb'; cases hb'; omega
    · rw [hi]
      refine congrArg Res.ok ?_
      split
      · exact bmod_small (by omega)
      · exact bmod_large (by omega) hlt

end Fleece
