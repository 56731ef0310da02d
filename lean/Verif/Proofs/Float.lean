import Verif.Spec.Float
import Verif.Proofs.Number

/-! # Floating-point numbers: Rust's conversions exist -/

namespace Fleece
open Res Spec

/-- The bits of a binary64 from its three parts. -/
def bits64 (neg : Bool) (e frac : Nat) : Nat := (if neg then 2 ^ 63 else 0) + e * 2 ^ 52 + frac

theorem bits64_lt {neg : Bool} {e frac : Nat} (he : e < 2 ^ 11) (hf : frac < 2 ^ 52) : bits64 neg e frac < 2 ^ 64 := by
  unfold bits64
  cases neg <;> simp only [Bool.false_eq_true, if_true, if_false] <;> omega

theorem f64Value_bits {neg : Bool} {e frac : Nat} (he : e < 2 ^ 11) (hf : frac < 2 ^ 52) :
    f64Value (UInt64.ofNat (bits64 neg e frac)) =
      if e = 2047 then if frac = 0 then .infinite neg else .nan
      else if e = 0 then .finite neg frac else .finite neg ((2 ^ 52 + frac) * 2 ^ (e - 1)) := by
  have hlt := bits64_lt (neg := neg) he hf
  unfold f64Value floatValue
  rw [UInt64.toNat_ofNat', Nat.mod_eq_of_lt hlt]
  have h1 : bits64 neg e frac % 2 ^ 52 = frac := by
    unfold bits64
    cases neg <;> simp only [Bool.false_eq_true, if_true, if_false] <;> omega
  have h2 : bits64 neg e frac / 2 ^ 52 % 2 ^ 11 = e := by
    unfold bits64
    cases neg <;> simp only [Bool.false_eq_true, if_true, if_false] <;> omega
  have h3 : decide (bits64 neg e frac / 2 ^ (52 + 11) % 2 = 1) = neg := by
    unfold bits64
    cases neg <;> simp only [Bool.false_eq_true, if_true, if_false, decide_eq_true_eq, decide_eq_false_iff_not] <;> omega
  dsimp only
  rw [h1, h2, h3]
  simp only [Nat.pow_zero, Nat.mul_one, Nat.zero_add]

/-- The bits of the binary64 with the given value, if there is one. -/
def encode64 (neg : Bool) (n : Nat) : UInt64 :=
  UInt64.ofNat (if n < 2 ^ 52 then bits64 neg 0 n else bits64 neg (n.log2 - 51) (n / 2 ^ (n.log2 - 52) - 2 ^ 52))

theorem f64Value_encode {neg : Bool} {n : Nat} (hn : n < 2 ^ 2098) (hd : 2 ^ (n.log2 - 52) ∣ n) :
    f64Value (encode64 neg n) = .finite neg n := by
  unfold encode64
  by_cases h : n < 2 ^ 52
  · rw [if_pos h, f64Value_bits (by decide) h]
    simp
  · rw [if_neg h]
    have hn0 : n ≠ 0 := by intro h0; subst h0; exact h (by decide)
    have hlo : 2 ^ n.log2 ≤ n := Nat.log2_self_le hn0
    have hhi : n < 2 ^ (n.log2 + 1) := Nat.lt_log2_self
    have h52 : 52 ≤ n.log2 := by
      rw [Nat.le_log2 hn0]; omega
    have hmax : n.log2 < 2098 := by
      rw [Nat.log2_lt hn0]; exact hn
    obtain ⟨q, hq⟩ := hd
    generalize hk : n.log2 - 52 = k at *
    have hlog : n.log2 = k + 52 := by omega
    rw [hlog] at hlo hhi
    have hpos : 0 < 2 ^ k := Nat.two_pow_pos k
    have hqd : n / 2 ^ k = q := by rw [hq]; exact Nat.mul_div_cancel_left _ hpos
    rw [Nat.pow_add] at hlo
    rw [Nat.pow_add, Nat.pow_add] at hhi
    have hq1 : 2 ^ 52 ≤ q := by
      rw [hq] at hlo
      exact Nat.le_of_mul_le_mul_left hlo hpos
    have hq2 : q < 2 ^ 53 := by
      rw [hq, Nat.mul_assoc] at hhi
      have := Nat.lt_of_mul_lt_mul_left hhi
      omega
    rw [hqd, show n.log2 - 51 = k + 1 by omega, f64Value_bits (by omega) (by omega), if_neg (by omega), if_neg (by omega)]
    congr 1
    rw [show k + 1 - 1 = k by omega, show 2 ^ 52 + (q - 2 ^ 52) = q by omega, hq, Nat.mul_comm]

/-- Numbers with at most 53 binary digits are numbers of binary64. -/
theorem dvd_of_digits {m s : Nat} (h : m < 2 ^ 53) : 2 ^ ((m * 2 ^ s).log2 - 52) ∣ m * 2 ^ s := by
  by_cases hm : m = 0
  · subst hm; simp
  have hpos : 0 < 2 ^ s := Nat.two_pow_pos s
  have hlt : (m * 2 ^ s).log2 < 53 + s := by
    rw [Nat.log2_lt (Nat.mul_ne_zero hm (by omega)), Nat.pow_add]
    exact Nat.mul_lt_mul_of_pos_right h hpos
  exact Nat.dvd_trans (Nat.pow_dvd_pow 2 (show (m * 2 ^ s).log2 - 52 ≤ s by omega)) (Nat.dvd_mul_left _ _)

theorem f32Value_finite {b : UInt32} {neg : Bool} {n : Nat} (h : f32Value b = .finite neg n) :
    ∃ m s, m < 2 ^ 24 ∧ s ≤ 1178 ∧ n = m * 2 ^ s := by
  unfold f32Value floatValue at h
  dsimp only at h
  have hb : b.toNat < 2 ^ 32 := b.toNat_lt
  split at h
  · split at h <;> cases h
  · rename_i he
    split at h
    · cases h
      exact ⟨b.toNat % 2 ^ 23, 925, by omega, by omega, rfl⟩
    · cases h
      exact ⟨2 ^ 23 + b.toNat % 2 ^ 23, _, by omega, by omega, rfl⟩

/-- `f64::from(f32)`. -/
def widen32 (b : UInt32) : UInt64 :=
  match f32Value b with
  | .nan => UInt64.ofNat (bits64 false 2047 1)
  | .infinite neg => UInt64.ofNat (bits64 neg 2047 0)
  | .finite neg n => encode64 neg n

theorem widen32_value (b : UInt32) : f64Value (widen32 b) = f32Value b := by
  unfold widen32
  cases h : f32Value b with
  | nan => dsimp only; rw [f64Value_bits (by decide) (by decide)]; rfl
  | infinite neg => dsimp only; rw [f64Value_bits (by decide) (by decide)]; rfl
  | finite neg n =>
    obtain ⟨m, s, h1, h2, rfl⟩ := f32Value_finite h
    dsimp only
    refine f64Value_encode ?_ (dvd_of_digits (by omega))
    calc m * 2 ^ s < 2 ^ 24 * 2 ^ s := Nat.mul_lt_mul_of_pos_right h1 (Nat.two_pow_pos s)
      _ = 2 ^ (24 + s) := by rw [Nat.pow_add]
      _ ≤ 2 ^ 2098 := Nat.pow_le_pow_right (by omega) (by omega)

/-- The finite numbers of binary32 are different for different bits. -/
theorem f32_unique {f1 f2 u1 u2 : Nat} (h1 : f1 < 2 ^ 24) (h2 : f2 < 2 ^ 24) (hu1 : 0 < u1 → 2 ^ 23 ≤ f1)
    (hu2 : 0 < u2 → 2 ^ 23 ≤ f2) (h : f1 * 2 ^ u1 = f2 * 2 ^ u2) : f1 = f2 ∧ u1 = u2 := by
  have go : ∀ {f1 f2 u1 u2 : Nat}, f1 < 2 ^ 24 → (0 < u2 → 2 ^ 23 ≤ f2) → f1 * 2 ^ u1 = f2 * 2 ^ u2 → ¬ u1 < u2 := by
    intro f1 f2 u1 u2 h1 hu2 h hlt
    have hf := hu2 (by omega)
    obtain ⟨d, rfl⟩ : ∃ d, u2 = u1 + (d + 1) := ⟨u2 - u1 - 1, by omega⟩
    rw [Nat.pow_add, ← Nat.mul_assoc, Nat.mul_right_comm] at h
    have h3 := Nat.mul_right_cancel (Nat.two_pow_pos u1) h
    have : 1 ≤ 2 ^ d := Nat.two_pow_pos d
    have h4 : f1 = f2 * 2 ^ d * 2 := by rw [h3, Nat.pow_succ, ← Nat.mul_assoc]
    have : f2 * 1 ≤ f2 * 2 ^ d := Nat.mul_le_mul_left _ this
    omega
  have hu : u1 = u2 := by
    have a := go h1 hu2 h
    have b := go h2 hu1 h.symm
    omega
  subst hu
  exact ⟨Nat.mul_right_cancel (Nat.two_pow_pos u1) h, rfl⟩

theorem f32Value_inj {a b : UInt32} (h : f32Value a = f32Value b) (hn : f32Value a ≠ .nan) : a = b := by
  have ha : a.toNat < 2 ^ 32 := a.toNat_lt
  have hb : b.toNat < 2 ^ 32 := b.toNat_lt
  -- every value that is not NaN determines sign, exponent and fraction
  suffices hs : decide (a.toNat / 2 ^ (23 + 8) % 2 = 1) = decide (b.toNat / 2 ^ (23 + 8) % 2 = 1) ∧
      a.toNat / 2 ^ 23 % 2 ^ 8 = b.toNat / 2 ^ 23 % 2 ^ 8 ∧ a.toNat % 2 ^ 23 = b.toNat % 2 ^ 23 by
    apply UInt32.toNat_inj.mp
    obtain ⟨h1, h2, h3⟩ := hs
    rw [decide_eq_decide] at h1
    omega
  have hfa : a.toNat % 2 ^ 23 < 2 ^ 23 := Nat.mod_lt _ (by decide)
  have hfb : b.toNat % 2 ^ 23 < 2 ^ 23 := Nat.mod_lt _ (by decide)
  unfold f32Value floatValue at h hn
  dsimp only at h hn
  generalize decide (a.toNat / 2 ^ (23 + 8) % 2 = 1) = na at *
  generalize decide (b.toNat / 2 ^ (23 + 8) % 2 = 1) = nb at *
  generalize a.toNat / 2 ^ 23 % 2 ^ 8 = ea at *
  generalize b.toNat / 2 ^ 23 % 2 ^ 8 = eb at *
  generalize a.toNat % 2 ^ 23 = fa at *
  generalize b.toNat % 2 ^ 23 = fb at *
  clear ha hb
  have fin : ∀ {e f : Nat} {n : Bool}, (if e = 0 then FloatValue.finite n (f * 2 ^ 925)
      else .finite n ((2 ^ 23 + f) * 2 ^ (925 + (e - 1)))) =
      .finite n ((if e = 0 then f else 2 ^ 23 + f) * 2 ^ (e - 1) * 2 ^ 925) := by
    intro e f n
    by_cases he : e = 0
    · subst he; simp only [if_true, Nat.zero_sub, Nat.pow_zero, Nat.mul_one]
    · rw [if_neg he, if_neg he, Nat.pow_add, ← Nat.mul_assoc, Nat.mul_right_comm]
  rw [fin, fin] at h
  rw [fin] at hn
  clear fin
  have hga : (if ea = 0 then fa else 2 ^ 23 + fa) < 2 ^ 24 := by split <;> omega
  have hgb : (if eb = 0 then fb else 2 ^ 23 + fb) < 2 ^ 24 := by split <;> omega
  have hua : 0 < ea - 1 → 2 ^ 23 ≤ (if ea = 0 then fa else 2 ^ 23 + fa) := by intro h; split <;> omega
  have hub : 0 < eb - 1 → 2 ^ 23 ≤ (if eb = 0 then fb else 2 ^ 23 + fb) := by intro h; split <;> omega
  have hback : (if ea = 0 then fa else 2 ^ 23 + fa) = (if eb = 0 then fb else 2 ^ 23 + fb) → ea - 1 = eb - 1 →
      ea = eb ∧ fa = fb := by intro h1 h2; split at h1 <;> split at h1 <;> omega
  generalize (if ea = 0 then fa else 2 ^ 23 + fa) = ga at *
  generalize (if eb = 0 then fb else 2 ^ 23 + fb) = gb at *
  by_cases hea : ea = 2 ^ 8 - 1
  · rw [if_pos hea] at h hn
    by_cases hf0 : fa = 0
    · rw [if_pos hf0] at h
      by_cases heb : eb = 2 ^ 8 - 1
      · rw [if_pos heb] at h
        by_cases hg0 : fb = 0
        · rw [if_pos hg0] at h
          injection h with h
          exact ⟨h, by rw [hea, heb], by rw [hf0, hg0]⟩
        · rw [if_neg hg0] at h; exact nomatch h
      · rw [if_neg heb] at h; exact nomatch h
    · rw [if_neg hf0] at hn; exact absurd rfl hn
  · rw [if_neg hea] at h
    by_cases heb : eb = 2 ^ 8 - 1
    · rw [if_pos heb] at h
      by_cases hg0 : fb = 0
      · rw [if_pos hg0] at h; exact nomatch h
      · rw [if_neg hg0] at h; exact nomatch h
    · rw [if_neg heb] at h
      injection h with h1 h2
      obtain ⟨hu1, hu2⟩ := f32_unique hga hgb hua hub (Nat.mul_right_cancel (Nat.two_pow_pos 925) h2)
      exact ⟨h1, hback hu1 hu2⟩

open Classical in
/-- Conversions as the specification has them. -/
noncomputable def ieeeOps : FloatOps where
  widen := widen32
  narrow d := if h : ∃ b, f32Value b ≠ .nan ∧ widen32 b = d then h.choose else 0
  toI64 b := (f64Value b).toInteger (-2 ^ 63) (2 ^ 63 - 1)
  toI16 b := (f64Value b).toInteger (-2 ^ 15) (2 ^ 15 - 1)
  toU16 b := ((f64Value b).toInteger 0 (2 ^ 16 - 1)).toNat
  ofI64 z := encode64 (decide (z < 0)) (z.natAbs * one)

theorem ieeeOps_ieee : Ieee ieeeOps where
  toI64 _ := rfl
  toI16 _ := rfl
  toU16 b := by
    show (((f64Value b).toInteger 0 (2 ^ 16 - 1)).toNat : Int) = _
    refine Int.toNat_of_nonneg ?_
    unfold FloatValue.toInteger
    split
    · omega
    · split <;> omega
    · omega
  widen := widen32_value
  narrow b hb := by
    have hex : ∃ b', f32Value b' ≠ .nan ∧ widen32 b' = widen32 b := ⟨b, hb, rfl⟩
    show ieeeOps.narrow (widen32 b) = b
    unfold ieeeOps
    dsimp only
    rw [dif_pos hex]
    obtain ⟨h1, h2⟩ := hex.choose_spec
    refine f32Value_inj ?_ h1
    rw [← widen32_value, ← widen32_value, h2]
  ofI64 z hz := by
    show f64Value (encode64 _ _) = _
    unfold one
    refine f64Value_encode ?_ ?_
    · calc z.natAbs * 2 ^ 1074 ≤ 2 ^ 53 * 2 ^ 1074 := Nat.mul_le_mul_right _ hz
        _ = 2 ^ (53 + 1074) := (Nat.pow_add ..).symm
        _ < 2 ^ 2098 := Nat.pow_lt_pow_right (by omega) (by omega)
    · by_cases h : z.natAbs = 2 ^ 53
      · rw [h, ← Nat.pow_add, Nat.log2_two_pow]
        exact Nat.pow_dvd_pow 2 (by omega)
      · exact dvd_of_digits (by omega)

end Fleece
