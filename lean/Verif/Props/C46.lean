import Verif.Proofs.Number

/-! # C46 Integers are converted to what they are -/

namespace Fleece.Props
open Fleece Res Spec

private theorem deep (m : Mem) (hdbg : m.dbg = true) (root : Val) (hok : fromBytes m = .ok root)
    (m' : Mem) (hm : m' = m ∨ m' = { m with dbg := false }) : DeepOK m' root := by
  have hd : DeepOK m root := fromBytesGo_deep hdbg _ _ hok
  rcases hm with rfl | rfl
  · exact hd
  · exact hd.rel hdbg

/-- **C46**, as far as it holds. Let a value reachable in an accepted document be the integer `z`, as the format defines it.
Then each conversion gives `z` if `z` is in its range:
* `to_int`, `to_short`, `to_double` and `to_float`, unless `z` is negative and a signed number of fewer than eight bytes;
* `to_unsigned_int` and `to_unsigned_short`;
* `to_bool` says whether `z` is 0, unless it is an unsigned number.
The provisos are necessary: `C46_refuted`, `C46_negative`. -/
theorem C46_conversions_partial (m : Mem) (hdbg : m.dbg = true) (root : Val) (hok : fromBytes m = .ok root)
    (m' : Mem) (hm : m' = m ∨ m' = { m with dbg := false }) (F : FloatOps) (scope : Option SharedKeys)
    (v : Val) (hv : Reach m' scope root v) (z : Int) (hz : Stores m'.data v.pos z) :
    (¬ (Narrow m'.data v.pos ∧ z < 0) →
      (z < 2 ^ 63 → v.toInt m' F = .ok z ∧ v.toDouble m' F = .ok (F.ofI64 z) ∧ v.toFloat m' F = .ok (F.narrow (F.ofI64 z))) ∧
      (-2 ^ 15 ≤ z → z < 2 ^ 15 → v.toShort m' F = .ok z)) ∧
    (0 ≤ z → v.toUnsignedInt m' F = .ok z.toNat ∧ (z < 2 ^ 16 → v.toUnsignedShort m' F = .ok z.toNat)) ∧
    (¬ Unsigned m'.data v.pos → v.toBool m' F = .ok (decide (z ≠ 0))) := by
  have hd := (deep m hdbg root hok m' hm).reach hv
  have hb : ∀ i : Int, -2 ^ 15 ≤ i → i < 2 ^ 15 → Int.bmod i (2 ^ 16) = i := fun i h1 h2 => by
    unfold Int.bmod; simp only; omega
  rcases stores_toInt F hd.inb hd.len2 hz with ⟨ht, hi, hs, lo, hi', hg, hn, hu⟩ | ⟨c, hc, ht, hu, hn, lo, hi', hi⟩ |
    ⟨ht, hu, hn, lo, hi', hi⟩
  · have hdb : v.toDouble m' F = .ok (F.ofI64 z) := by unfold Val.toDouble; simp only [ht, ok_bind, hi]; rfl
    refine ⟨fun _ => ⟨fun _ => ⟨hi, hdb, ?_⟩, fun _ _ => ?_⟩, fun h0 => ⟨?_, fun _ => ?_⟩, fun _ => ?_⟩
    · unfold Val.toFloat; rw [hdb]; rfl
    · unfold Val.toShort; rw [ht]; exact hs
    · unfold Val.toUnsignedInt; rw [hi]; refine congrArg Res.ok ?_; omega
    · unfold Val.toUnsignedShort; rw [ht]; simp only [ok_bind, hg]; refine congrArg Res.ok ?_; omega
    · unfold Val.toBool; simp only [ht, ok_bind, hi]; rfl
  · have hlo : -2 ^ 63 ≤ z := by
      have : (2 : Int) ^ (8 * c + 7) ≤ 2 ^ 63 := by
        have := Nat.pow_le_pow_right (n := 2) (by omega) (show 8 * c + 7 ≤ 63 by omega)
        exact_mod_cast this
      omega
    have hhi : z < 2 ^ 63 := by
      have : (2 : Int) ^ (8 * c + 7) ≤ 2 ^ 63 := by
        have := Nat.pow_le_pow_right (n := 2) (by omega) (show 8 * c + 7 ≤ 63 by omega)
        exact_mod_cast this
      omega
    have keep : ¬ (Narrow m'.data v.pos ∧ z < 0) → v.toInt m' F = .ok z := fun hk => by
      rw [hi, if_neg]
      rw [← hn]; exact hk
    have pos : 0 ≤ z → v.toInt m' F = .ok z := fun h0 => keep (by omega)
    refine ⟨fun hk => ⟨fun _ => ?_, fun l h => ?_⟩, fun h0 => ⟨?_, fun h => ?_⟩, fun _ => ?_⟩
    · have hdb : v.toDouble m' F = .ok (F.ofI64 z) := by unfold Val.toDouble; simp only [ht, ok_bind, keep hk]; rfl
      refine ⟨keep hk, hdb, ?_⟩
      unfold Val.toFloat; rw [hdb]; rfl
    · unfold Val.toShort; simp only [ht, ok_bind, keep hk]; exact congrArg Res.ok (hb z l h)
    · unfold Val.toUnsignedInt; rw [pos h0]; refine congrArg Res.ok ?_; omega
    · unfold Val.toUnsignedShort Val.toUnsignedInt; simp only [ht, ok_bind, pos h0]
      refine congrArg Res.ok ?_; omega
    · unfold Val.toBool; simp only [ht, ok_bind, hi]
      refine congrArg Res.ok ?_
      split
      · rename_i hh
        have : z + 2 ^ (8 * (c + 1)) ≠ 0 := by
          have : (2 : Int) ^ (8 * (c + 1)) = 2 * 2 ^ (8 * c + 7) := by
            rw [show 8 * (c + 1) = (8 * c + 7) + 1 by omega, Int.pow_succ]; omega
          have hp : (0 : Int) < 2 ^ (8 * c + 7) := Int.pow_pos (by omega)
          generalize (2 : Int) ^ (8 * c + 7) = p at *
          omega
        simp only [decide_eq_decide]
        exact ⟨fun _ => by omega, fun _ => this⟩
      · rfl
  · have small : z < 2 ^ 63 → v.toInt m' F = .ok z := fun h => by rw [hi, if_pos h]
    have hun : v.toUnsignedInt m' F = .ok z.toNat := by
      unfold Val.toUnsignedInt; rw [hi]
      refine congrArg Res.ok ?_
      split <;> omega
    refine ⟨fun hk => ⟨fun h => ?_, fun l h => ?_⟩, fun h0 => ⟨hun, fun h => ?_⟩, fun h => absurd hu h⟩
    · have hdb : v.toDouble m' F = .ok (F.ofI64 z) := by unfold Val.toDouble; simp only [ht, ok_bind, small h]; rfl
      refine ⟨small h, hdb, ?_⟩
      unfold Val.toFloat; rw [hdb]; rfl
    · unfold Val.toShort; simp only [ht, ok_bind, small (by omega)]; exact congrArg Res.ok (hb z l h)
    · unfold Val.toUnsignedShort; simp only [ht, ok_bind, hun]
      refine congrArg Res.ok ?_; omega

/-- **C46 fails for every negative signed number of fewer than eight bytes** (which the format allows and this library's own
encoder does not write): `to_int` gives a positive number. -/
theorem C46_negative (m : Mem) (hdbg : m.dbg = true) (root : Val) (hok : fromBytes m = .ok root)
    (m' : Mem) (hm : m' = m ∨ m' = { m with dbg := false }) (F : FloatOps) (scope : Option SharedKeys)
    (v : Val) (hv : Reach m' scope root v) (z : Int) (hz : Stores m'.data v.pos z) (hn : Narrow m'.data v.pos) (h0 : z < 0) :
    ∃ i, v.toInt m' F = .ok i ∧ 0 < i := by
  have hd := (deep m hdbg root hok m' hm).reach hv
  rcases stores_toInt F hd.inb hd.len2 hz with ⟨_, _, _, _, _, _, hn', _⟩ | ⟨c, hc, ht, hu, hn', lo, hi', hi⟩ |
    ⟨_, _, hn', _⟩
  · exact absurd hn hn'
  · refine ⟨_, hi, ?_⟩
    rw [if_pos ⟨hn'.mp hn, h0⟩]
    have : (2 : Int) ^ (8 * (c + 1)) = 2 * 2 ^ (8 * c + 7) := by
      rw [show 8 * (c + 1) = (8 * c + 7) + 1 by omega, Int.pow_succ]; omega
    have hp : (0 : Int) < 2 ^ (8 * c + 7) := Int.pow_pos (by omega)
    generalize (2 : Int) ^ (8 * c + 7) = p at *
    omega
  · exact absurd hn hn'

/-- **C46 fails for every unsigned number from `2^63`**: it is converted to floating point as the negative number `z - 2^64`. -/
theorem C46_large (m : Mem) (hdbg : m.dbg = true) (root : Val) (hok : fromBytes m = .ok root)
    (m' : Mem) (hm : m' = m ∨ m' = { m with dbg := false }) (F : FloatOps) (scope : Option SharedKeys)
    (v : Val) (hv : Reach m' scope root v) (z : Int) (hz : Stores m'.data v.pos z) (h : 2 ^ 63 ≤ z) :
    v.toDouble m' F = .ok (F.ofI64 (z - 2 ^ 64)) ∧ z - 2 ^ 64 < 0 := by
  have hd := (deep m hdbg root hok m' hm).reach hv
  rcases stores_toInt F hd.inb hd.len2 hz with ⟨_, _, _, _, _, _, hn', _⟩ | ⟨c, hc, ht, hu, hn', lo, hi', hi⟩ |
    ⟨ht, hu, hn', lo, hi', hi⟩
  · omega
  · have : (2 : Int) ^ (8 * c + 7) ≤ 2 ^ 63 := by
      have := Nat.pow_le_pow_right (n := 2) (by omega) (show 8 * c + 7 ≤ 63 by omega)
      exact_mod_cast this
    omega
  · rw [if_neg (by omega)] at hi
    refine ⟨?_, by omega⟩
    unfold Val.toDouble; simp only [ht, ok_bind, hi]; rfl

set_option maxRecDepth 20000 in
/-- **C46 is false of the code.** Three accepted documents: the signed number -1 in one byte becomes 255; the unsigned number
`2^64 - 1` is converted to floating point as if it were -1; the unsigned number 0 is `true`. -/
theorem C46_refuted :
    (fromBytes { data := [0x10, 0xFF] } = .ok ⟨0, 2⟩ ∧ Stores [0x10, 0xFF] 0 (-1) ∧
      ∀ F, (⟨0, 2⟩ : Val).toInt { data := [0x10, 0xFF] } F = .ok 255) ∧
    (fromBytes { data := [0x1F, 0xFF, 0xFF, 0xFF, 0xFF, 0xFF, 0xFF, 0xFF, 0xFF, 0, 0x80, 5] } = .ok ⟨0, 10⟩ ∧
      Stores [0x1F, 0xFF, 0xFF, 0xFF, 0xFF, 0xFF, 0xFF, 0xFF, 0xFF, 0, 0x80, 5] 0 (2 ^ 64 - 1) ∧
      ∀ F, (⟨0, 10⟩ : Val).toDouble { data := [0x1F, 0xFF, 0xFF, 0xFF, 0xFF, 0xFF, 0xFF, 0xFF, 0xFF, 0, 0x80, 5] } F
        = .ok (F.ofI64 (-1))) ∧
    (fromBytes { data := [0x18, 0x00] } = .ok ⟨0, 2⟩ ∧ Stores [0x18, 0x00] 0 0 ∧
      ∀ F, (⟨0, 2⟩ : Val).toBool { data := [0x18, 0x00] } F = .ok true) := by
  refine ⟨⟨by decide +kernel, ?_, fun F => ?_⟩, ⟨by decide +kernel, ?_, fun F => ?_⟩,
    ⟨by decide +kernel, ?_, fun F => rfl⟩⟩
  · have h : Stores [0x10, 0xFF] 0 _ := .int (c := 0) (bs := [0xFF]) (by omega) rfl rfl ⟨[], rfl⟩
    rwa [show twos (8 * (0 + 1)) (littleEndian [0xFF]) = -1 from by decide +kernel] at h
  · rw [word_toInt F (m := { data := [0x10, 0xFF] }) (v := ⟨0, 2⟩) (b := 0x10) (c := 0) (bs := [0xFF]) (show 0 + 2 ≤ 2 by omega)
      (show 2 ≤ 2 by omega) rfl (by decide) (by decide) rfl ⟨[], rfl⟩]
    exact congrArg Res.ok (by decide +kernel)
  · have h : Stores [0x1F, 0xFF, 0xFF, 0xFF, 0xFF, 0xFF, 0xFF, 0xFF, 0xFF, 0, 0x80, 5] 0 _ :=
      .unsigned (c := 7) (bs := [0xFF, 0xFF, 0xFF, 0xFF, 0xFF, 0xFF, 0xFF, 0xFF]) (by omega) rfl rfl ⟨[0, 0x80, 5], rfl⟩
    rwa [show ((littleEndian [0xFF, 0xFF, 0xFF, 0xFF, 0xFF, 0xFF, 0xFF, 0xFF] : Nat) : Int) = 2 ^ 64 - 1 from by
      decide +kernel] at h
  · have h := stores_toInt F (m := { data := [0x1F, 0xFF, 0xFF, 0xFF, 0xFF, 0xFF, 0xFF, 0xFF, 0xFF, 0, 0x80, 5] })
      (v := ⟨0, 10⟩) (show 0 + 10 ≤ 12 by omega) (show 2 ≤ 10 by omega)
      (.unsigned (c := 7) (bs := [0xFF, 0xFF, 0xFF, 0xFF, 0xFF, 0xFF, 0xFF, 0xFF]) (by omega) rfl rfl ⟨[0, 0x80, 5], rfl⟩)
    rw [show ((littleEndian [0xFF, 0xFF, 0xFF, 0xFF, 0xFF, 0xFF, 0xFF, 0xFF] : Nat) : Int) = 2 ^ 64 - 1 from by
      decide +kernel] at h
    rcases h with ⟨_, _, _, _, h, _⟩ | ⟨c, hc, _, _, _, _, h, _⟩ | ⟨ht, _, _, _, _, hi⟩
    · omega
    · have : (2 : Int) ^ (8 * c + 7) ≤ 2 ^ 63 := by
        have := Nat.pow_le_pow_right (n := 2) (by omega) (show 8 * c + 7 ≤ 63 by omega)
        exact_mod_cast this
      omega
    · rw [if_neg (by omega)] at hi
      unfold Val.toDouble; simp only [ht, ok_bind, hi]
      refine congrArg Res.ok (congrArg F.ofI64 ?_); omega
  · have h : Stores [0x18, 0x00] 0 _ := .unsigned (c := 0) (bs := [0x00]) (by omega) rfl rfl ⟨[], rfl⟩
    rwa [show ((littleEndian [0x00] : Nat) : Int) = 0 from by decide +kernel] at h

/-- The document `-5`, for which the provisos are met. -/
example : fromBytes { data := [0x0F, 0xFB] } = .ok ⟨0, 2⟩ ∧ Stores [0x0F, 0xFB] 0 (-5) ∧ ¬ Narrow [0x0F, 0xFB] 0 ∧
    ¬ Unsigned [0x0F, 0xFB] 0 := by
  refine ⟨by decide +kernel, ?_, ?_, ?_⟩
  · have h : Stores [0x0F, 0xFB] 0 _ := .short (b0 := 0x0F) (b1 := 0xFB) rfl (by decide) rfl
    rwa [show twos 12 ((0x0F : UInt8).toNat * 256 + (0xFB : UInt8).toNat) = -5 from by decide +kernel] at h
  · rintro ⟨b, hb, h, _⟩; cases hb; exact absurd h (by decide)
  · rintro ⟨b, hb, h, _⟩; cases hb; exact absurd h (by decide)

end Fleece.Props
