import Verif.Proofs.Float
import Verif.Props.C46

/-!
# C73 Floating-point numbers are converted to what they are

Full claim: let `x` be a floating-point number in an accepted document. Then `to_double` gives `x`; `to_float` gives `x` if it was
stored in 32 bits; `to_int`, `to_unsigned_int`, `to_short` and `to_unsigned_short` give `x` without its fraction, the nearest number
of the type if that is out of range, and 0 for NaN; `to_bool` says whether `x` is different from 0. False of `to_unsigned_int` from
`2^63` on and below 0 (`C73_large`, `C73_below`), and of `to_bool` for every number between -1 and 1 (`C73_fraction`) and NaN.
-/

namespace Fleece.Props
open Fleece Res Spec

private theorem deep (m : Mem) (hdbg : m.dbg = true) (root : Val) (hok : fromBytes m = .ok root)
    (m' : Mem) (hm : m' = m ∨ m' = { m with dbg := false }) : DeepOK m' root := by
  have hd : DeepOK m root := fromBytesGo_deep hdbg _ _ hok
  rcases hm with rfl | rfl
  · exact hd
  · exact hd.rel hdbg

theorem fromByte_single (b : UInt8) (lo : 0x20 ≤ b.toNat) (hi : b.toNat < 0x28) :
    ValueType.fromByte b = .float ∨ ValueType.fromByte b = .double32 := by
  have : ∀ c : Fin 256, 0x20 ≤ c.val → c.val < 0x28 →
      ValueType.fromByte (UInt8.ofNat c.val) = .float ∨ ValueType.fromByte (UInt8.ofNat c.val) = .double32 := by decide +kernel
  have := this ⟨b.toNat, byte_lt b⟩ lo hi
  simpa using this

theorem fromByte_double (b : UInt8) (lo : 0x28 ≤ b.toNat) (hi : b.toNat < 0x30) : ValueType.fromByte b = .double64 := by
  have : ∀ c : Fin 256, 0x28 ≤ c.val → c.val < 0x30 → ValueType.fromByte (UInt8.ofNat c.val) = .double64 := by decide +kernel
  have := this ⟨b.toNat, byte_lt b⟩ lo hi
  simpa using this

theorem leNat_littleEndian (bs : List UInt8) : leNat bs = littleEndian bs := by
  unfold littleEndian
  induction bs with
  | nil => rfl
  | cons b bs ih => unfold leNat; rw [ih, List.foldr_cons]; omega

theorem single_read {m : Mem} {v : Val} {F : FloatOps} (hv : v.In m) (hl : 2 ≤ v.len) {b0 : UInt8} {bs : List UInt8}
    (h0 : m.data[v.pos]? = some b0) (lo : 0x20 ≤ b0.toNat) (hi : b0.toNat < 0x28) (len : bs.length = 4)
    (h1 : bs <+: m.data.drop (v.pos + 2)) (hnp : v.toDouble m F ≠ .panic) :
    v.toDouble m F = .ok (F.widen (UInt32.ofNat (littleEndian bs))) := by
  have ht := type0 hv hl h0
  have hk := h1.length_le
  rw [List.length_drop, len] at hk
  unfold Val.toDouble Val.floatBits at hnp ⊢
  unfold Val.slice at hnp ⊢
  rw [ht] at hnp ⊢
  rcases fromByte_single b0 lo hi with h | h <;> rw [h] at hnp ⊢ <;>
    simp only [ok_bind, Bool.false_eq_true, if_false] at hnp ⊢ <;> by_cases h6 : 2 ≤ 6 ∧ 6 ≤ v.len
  all_goals first
    | (rw [if_neg h6] at hnp; exact absurd rfl hnp)
    | (rw [if_pos h6, rawRead_eq (by omega), show 6 - 2 = bs.length from by omega, prefix_take h1, ok_bind, pure_eq,
        leNat_littleEndian])

/-- What the conversions make of a stored number. -/
theorem storesFloat_read {m : Mem} {v : Val} {F : FloatOps} (hF : Ieee F) {x : FloatValue} (hv : v.In m) (hl : 2 ≤ v.len)
    (h : StoresFloat m.data v.pos x) (hnp : v.toDouble m F ≠ .panic) :
    ∃ d t, v.type m = .ok t ∧ (t = .float ∨ t = .double32 ∨ t = .double64) ∧ v.toDouble m F = .ok d ∧ f64Value d = x ∧
      v.toInt m F = .ok (F.toI64 d) := by
  have read : ∀ {k : Nat} {bs : List UInt8}, bs.length = k → 0 < k → bs <+: m.data.drop (v.pos + 2) →
      v.slice m 2 (2 + k) = .ok bs ∨ v.slice m 2 (2 + k) = .panic := by
    intro k bs len hk h1
    unfold Val.slice
    split
    · left
      have := h1.length_le
      rw [List.length_drop, len] at this
      rw [rawRead_eq (by omega), Nat.add_sub_cancel_left, ← len, prefix_take h1]
    · right; rfl
  cases h with
  | @single b0 bs h0 lo hi len h1 =>
    have ht := type0 hv hl h0
    have hr : v.slice m 2 6 = .ok bs := by
      rcases read len (by omega) h1 with hr | hr
      · exact hr
      · refine absurd ?_ hnp
        unfold Val.toDouble Val.floatBits
        rw [ht]
        rcases fromByte_single b0 lo hi with h | h <;> rw [h] <;> simp only [ok_bind, Bool.false_eq_true, if_false] <;>
          rw [hr] <;> rfl
    have hbits : v.floatBits m F false = .ok (F.widen (UInt32.ofNat (littleEndian bs))) := by
      unfold Val.floatBits
      simp only [Bool.false_eq_true, if_false, hr, ok_bind, pure_eq, leNat_littleEndian]
    refine ⟨_, _, ht, ?_, ?_, hF.widen _, ?_⟩
    · rcases fromByte_single b0 lo hi with h | h <;> rw [h] <;> simp
    · unfold Val.toDouble
      rw [ht]
      rcases fromByte_single b0 lo hi with h | h <;> rw [h] <;> exact hbits
    · unfold Val.toInt
      rw [ht]
      rcases fromByte_single b0 lo hi with h | h <;> rw [h] <;> simp only [ok_bind, hbits, pure_eq]
  | @double b0 bs h0 lo hi len h1 =>
    have ht := type0 hv hl h0
    rw [fromByte_double b0 lo hi] at ht
    have hr : v.slice m 2 10 = .ok bs := by
      rcases read len (by omega) h1 with hr | hr
      · exact hr
      · refine absurd ?_ hnp
        unfold Val.toDouble Val.floatBits
        rw [ht]
        simp only [ok_bind, if_true]
        rw [hr]; rfl
    have hbits : v.floatBits m F true = .ok (UInt64.ofNat (littleEndian bs)) := by
      unfold Val.floatBits
      simp only [if_true, hr, ok_bind, pure_eq, leNat_littleEndian]
    refine ⟨_, _, ht, .inr (.inr rfl), ?_, rfl, ?_⟩
    · unfold Val.toDouble; rw [ht]; exact hbits
    · unfold Val.toInt; rw [ht]; simp only [ok_bind, hbits, pure_eq]

/-- **C73**, as far as it holds. Let a value reachable in an accepted document be the floating-point number `x`, as the format
defines it, and let its bytes be within the value (otherwise every conversion panics, see C10). Then
* `to_double` is `x`, and `to_int`, `to_short` and `to_unsigned_short` are `x` without its fraction, limited to the type;
* `to_unsigned_int` is `x` without its fraction, if that is in the range of `i64` and not negative;
* `to_bool` says whether `x` is different from 0, unless `x` is NaN or between -1 and 1. -/
theorem C73_floats_partial (m : Mem) (hdbg : m.dbg = true) (root : Val) (hok : fromBytes m = .ok root)
    (m' : Mem) (hm : m' = m ∨ m' = { m with dbg := false }) (F : FloatOps) (hF : Ieee F) (scope : Option SharedKeys)
    (v : Val) (hv : Reach m' scope root v) (x : FloatValue) (hx : StoresFloat m'.data v.pos x) (hnp : v.toDouble m' F ≠ .panic) :
    (∃ d, v.toDouble m' F = .ok d ∧ f64Value d = x) ∧
    v.toInt m' F = .ok (x.toInteger (-2 ^ 63) (2 ^ 63 - 1)) ∧
    v.toShort m' F = .ok (x.toInteger (-2 ^ 15) (2 ^ 15 - 1)) ∧
    (∃ n : Nat, v.toUnsignedShort m' F = .ok n ∧ (n : Int) = x.toInteger 0 (2 ^ 16 - 1)) ∧
    (∀ neg n, x = .finite neg n → 0 ≤ intPart neg n → intPart neg n < 2 ^ 63 →
      v.toUnsignedInt m' F = .ok (intPart neg n).toNat) ∧
    ((x = .infinite true ∨ x = .infinite false ∨ ∃ neg n, x = .finite neg n ∧ (n = 0 ∨ one ≤ n)) →
      v.toBool m' F = .ok (decide (∀ neg, x ≠ .finite neg 0))) := by
  have hd := (deep m hdbg root hok m' hm).reach hv
  obtain ⟨d, t, ht, hty, h1, h2, h3⟩ := storesFloat_read hF hd.inb hd.len2 hx hnp
  have hint : v.toInt m' F = .ok (x.toInteger (-2 ^ 63) (2 ^ 63 - 1)) := by rw [h3, hF.toI64, h2]
  have hbool : v.toBool m' F = .ok (decide (x.toInteger (-2 ^ 63) (2 ^ 63 - 1) ≠ 0)) := by
    unfold Val.toBool
    rw [ht]
    rcases hty with rfl | rfl | rfl <;> simp only [ok_bind, hint, pure_eq]
  refine ⟨⟨d, h1, h2⟩, hint, ?_, ?_, ?_, ?_⟩
  · unfold Val.toShort
    rw [ht]
    rcases hty with rfl | rfl | rfl <;> simp only [ok_bind, h1, pure_eq, hF.toI16, h2]
  · refine ⟨F.toU16 d, ?_, by rw [hF.toU16, h2]⟩
    unfold Val.toUnsignedShort
    rw [ht]
    rcases hty with rfl | rfl | rfl <;> simp only [ok_bind, h1, pure_eq]
  · rintro neg n rfl h0 hlt
    unfold Val.toUnsignedInt
    rw [hint]
    simp only [ok_bind, pure_eq, FloatValue.toInteger]
    refine congrArg Res.ok ?_
    omega
  · intro hor
    rw [hbool]
    refine congrArg Res.ok ?_
    rw [decide_eq_decide]
    rcases hor with rfl | rfl | ⟨neg, n, rfl, hn⟩
    · simp [FloatValue.toInteger]
    · simp [FloatValue.toInteger]
    · rcases hn with rfl | hn
      · simp only [FloatValue.toInteger, intPart, Nat.zero_div]
        constructor
        · intro h; exfalso; apply h; cases neg <;> decide
        · intro h; exact absurd rfl (h neg)
      · have h1 : 0 < one := Nat.two_pow_pos _
        have hq : 1 ≤ n / one := by
          rw [Nat.le_div_iff_mul_le h1]; omega
        have hn0 : n ≠ 0 := by
          generalize one = k at *
          omega
        simp only [FloatValue.toInteger, intPart]
        constructor
        · intro _ neg' h; cases h; exact hn0 rfl
        · intro _
          generalize n / one = q at *
          cases neg <;> simp only [Bool.false_eq_true, if_true, if_false] <;> omega

/-- **C73**, `to_float`: a number stored in 32 bits is given back bit for bit, unless it is NaN. -/
theorem C73_single (m : Mem) (hdbg : m.dbg = true) (root : Val) (hok : fromBytes m = .ok root)
    (m' : Mem) (hm : m' = m ∨ m' = { m with dbg := false }) (F : FloatOps) (hF : Ieee F) (scope : Option SharedKeys)
    (v : Val) (hv : Reach m' scope root v) (b0 : UInt8) (bs : List UInt8) (h0 : m'.data[v.pos]? = some b0)
    (lo : 0x20 ≤ b0.toNat) (hi : b0.toNat < 0x28) (len : bs.length = 4) (h1 : bs <+: m'.data.drop (v.pos + 2))
    (hnan : f32Value (UInt32.ofNat (littleEndian bs)) ≠ .nan) (hnp : v.toDouble m' F ≠ .panic) :
    v.toFloat m' F = .ok (UInt32.ofNat (littleEndian bs)) := by
  have hd := (deep m hdbg root hok m' hm).reach hv
  unfold Val.toFloat
  rw [single_read hd.inb hd.len2 h0 lo hi len h1 hnp, ok_bind, pure_eq, hF.narrow _ hnan]

/-- **C73**, integers: an integer of at most `2^53` is exactly itself as a floating-point number, with the proviso of C46. -/
theorem C73_integers (m : Mem) (hdbg : m.dbg = true) (root : Val) (hok : fromBytes m = .ok root)
    (m' : Mem) (hm : m' = m ∨ m' = { m with dbg := false }) (F : FloatOps) (hF : Ieee F) (scope : Option SharedKeys)
    (v : Val) (hv : Reach m' scope root v) (z : Int) (hz : Stores m'.data v.pos z) (hr : z.natAbs ≤ 2 ^ 53)
    (hn : ¬ (Narrow m'.data v.pos ∧ z < 0)) :
    ∃ d, v.toDouble m' F = .ok d ∧ f64Value d = .finite (decide (z < 0)) (z.natAbs * one) :=
  ⟨_, ((C46_conversions_partial m hdbg root hok m' hm F scope v hv z hz).1 hn).1 (by omega) |>.2.1, hF.ofI64 z hr⟩

/-- **C73 is false of `to_bool`**: every number between -1 and 1 is `false`. -/
theorem C73_fraction (m : Mem) (hdbg : m.dbg = true) (root : Val) (hok : fromBytes m = .ok root)
    (m' : Mem) (hm : m' = m ∨ m' = { m with dbg := false }) (F : FloatOps) (hF : Ieee F) (scope : Option SharedKeys)
    (v : Val) (hv : Reach m' scope root v) (neg : Bool) (n : Nat) (hx : StoresFloat m'.data v.pos (.finite neg n))
    (hnp : v.toDouble m' F ≠ .panic) (hn : n < one) : v.toBool m' F = .ok false := by
  have hd := (deep m hdbg root hok m' hm).reach hv
  obtain ⟨d, t, ht, hty, h1, h2, h3⟩ := storesFloat_read hF hd.inb hd.len2 hx hnp
  have hz : F.toI64 d = 0 := by
    rw [hF.toI64, h2]
    simp only [FloatValue.toInteger, intPart, Nat.div_eq_of_lt hn]
    cases neg <;> decide
  unfold Val.toBool
  rw [ht]
  rcases hty with rfl | rfl | rfl <;> simp only [ok_bind, h3, hz, pure_eq] <;> rfl

/-- **C73 is false of `to_unsigned_int`** for numbers that do not fit `i64`: every number from `2^63` on becomes `2^63 - 1`, though
`u64` has room for as much again. -/
theorem C73_large (m : Mem) (hdbg : m.dbg = true) (root : Val) (hok : fromBytes m = .ok root)
    (m' : Mem) (hm : m' = m ∨ m' = { m with dbg := false }) (F : FloatOps) (hF : Ieee F) (scope : Option SharedKeys)
    (v : Val) (hv : Reach m' scope root v) (n : Nat) (hx : StoresFloat m'.data v.pos (.finite false n))
    (hnp : v.toDouble m' F ≠ .panic) (hn : 2 ^ 63 ≤ intPart false n) : v.toUnsignedInt m' F = .ok (2 ^ 63 - 1) := by
  have h := (C73_floats_partial m hdbg root hok m' hm F hF scope v hv _ hx hnp).2.1
  unfold Val.toUnsignedInt
  rw [h]
  simp only [ok_bind, pure_eq, FloatValue.toInteger]
  refine congrArg Res.ok ?_
  omega

/-- **C73 is false of `to_unsigned_int`** for negative numbers: -1 becomes `2^64 - 1`, -2 becomes `2^64 - 2` and so on, where a
conversion from `f64` to `u64` would give 0. -/
theorem C73_below (m : Mem) (hdbg : m.dbg = true) (root : Val) (hok : fromBytes m = .ok root)
    (m' : Mem) (hm : m' = m ∨ m' = { m with dbg := false }) (F : FloatOps) (hF : Ieee F) (scope : Option SharedKeys)
    (v : Val) (hv : Reach m' scope root v) (n : Nat) (hx : StoresFloat m'.data v.pos (.finite true n))
    (hnp : v.toDouble m' F ≠ .panic) (hlo : -2 ^ 63 ≤ intPart true n) (hhi : intPart true n < 0) :
    v.toUnsignedInt m' F = .ok (2 ^ 64 + intPart true n).toNat := by
  have h := (C73_floats_partial m hdbg root hok m' hm F hF scope v hv _ hx hnp).2.1
  unfold Val.toUnsignedInt
  rw [h]
  simp only [ok_bind, pure_eq, FloatValue.toInteger]
  refine congrArg Res.ok ?_
  omega

/-- The document `0.5`. -/
def halfDoc : List UInt8 := [0x28, 0, 0, 0, 0, 0, 0, 0, 0xE0, 0x3F, 0x80, 5]

/-- The document `2^63`. -/
def hugeDoc : List UInt8 := [0x28, 0, 0, 0, 0, 0, 0, 0, 0xE0, 0x43, 0x80, 5]

theorem half_stores : StoresFloat halfDoc 0 (.finite false (2 ^ 1073)) := by
  have h : StoresFloat halfDoc 0 _ := .double (b0 := 0x28) (bs := [0, 0, 0, 0, 0, 0, 0xE0, 0x3F]) rfl (by decide) (by decide) rfl
    ⟨[0x80, 5], rfl⟩
  rwa [show f64Value (UInt64.ofNat (littleEndian [0, 0, 0, 0, 0, 0, 0xE0, 0x3F])) = .finite false (2 ^ 1073) from by
    decide +kernel] at h

theorem huge_stores : StoresFloat hugeDoc 0 (.finite false (2 ^ 63 * one)) := by
  have h : StoresFloat hugeDoc 0 _ := .double (b0 := 0x28) (bs := [0, 0, 0, 0, 0, 0, 0xE0, 0x43]) rfl (by decide) (by decide) rfl
    ⟨[0x80, 5], rfl⟩
  rwa [show f64Value (UInt64.ofNat (littleEndian [0, 0, 0, 0, 0, 0, 0xE0, 0x43])) = .finite false (2 ^ 63 * one) from by
    decide +kernel] at h

/-- **C73 is false of the code.** The document `0.5` is `false`, and the document `2^63` becomes the unsigned number `2^63 - 1`. -/
theorem C73_refuted (F : FloatOps) (hF : Ieee F) :
    (fromBytes { data := halfDoc } = .ok ⟨0, 10⟩ ∧ StoresFloat halfDoc 0 (.finite false (2 ^ 1073)) ∧
      (⟨0, 10⟩ : Val).toBool { data := halfDoc } F = .ok false) ∧
    (fromBytes { data := hugeDoc } = .ok ⟨0, 10⟩ ∧ StoresFloat hugeDoc 0 (.finite false (2 ^ 63 * one)) ∧
      (⟨0, 10⟩ : Val).toUnsignedInt { data := hugeDoc } F = .ok (2 ^ 63 - 1)) := by
  have h1 : fromBytes { data := halfDoc } = .ok ⟨0, 10⟩ := by decide +kernel
  have h2 : fromBytes { data := hugeDoc } = .ok ⟨0, 10⟩ := by decide +kernel
  refine ⟨⟨h1, half_stores, ?_⟩, ⟨h2, huge_stores, ?_⟩⟩
  · exact C73_fraction _ rfl _ h1 _ (.inl rfl) F hF none _ .root _ _ half_stores (fun h => nomatch h)
      (Nat.pow_lt_pow_right (by omega) (by omega))
  · exact C73_large _ rfl _ h2 _ (.inl rfl) F hF none _ .root _ huge_stores (fun h => nomatch h) (by decide +kernel)

/-- The conversions of the specification meet `Ieee`, and `1.5`, stored in 32 bits, becomes 1 and `true`. -/
example : Ieee ieeeOps ∧
    (⟨0, 6⟩ : Val).toInt { data := [0x20, 0, 0, 0, 0xC0, 0x3F, 0x80, 3] } ieeeOps = .ok 1 ∧
    (⟨0, 6⟩ : Val).toBool { data := [0x20, 0, 0, 0, 0xC0, 0x3F, 0x80, 3] } ieeeOps = .ok true ∧
    (⟨0, 6⟩ : Val).toFloat { data := [0x20, 0, 0, 0, 0xC0, 0x3F, 0x80, 3] } ieeeOps = .ok 0x3FC00000 := by
  have hok : fromBytes { data := [0x20, 0, 0, 0, 0xC0, 0x3F, 0x80, 3] } = .ok ⟨0, 6⟩ := by decide +kernel
  have hx : StoresFloat [0x20, 0, 0, 0, 0xC0, 0x3F, 0x80, 3] 0 _ :=
    .single (b0 := 0x20) (bs := [0, 0, 0xC0, 0x3F]) rfl (by decide) (by decide) rfl ⟨[0x80, 3], rfl⟩
  have hs := C73_single _ rfl _ hok _ (.inl rfl) ieeeOps ieeeOps_ieee none _ .root 0x20 [0, 0, 0xC0, 0x3F] rfl (by decide)
    (by decide) rfl ⟨[0x80, 3], rfl⟩ (by decide +kernel) (fun h => nomatch h)
  have hv : f32Value (UInt32.ofNat (littleEndian [0, 0, 0xC0, 0x3F])) = .finite false (3 * 2 ^ 1073) := by decide +kernel
  rw [hv] at hx
  obtain ⟨_, h1, _, _, _, h2⟩ := C73_floats_partial _ rfl _ hok _ (.inl rfl) ieeeOps ieeeOps_ieee none _ .root _ hx
    (fun h => nomatch h)
  refine ⟨ieeeOps_ieee, ?_, ?_, hs⟩
  · rw [h1]; exact congrArg Res.ok (by decide +kernel)
  · refine (h2 (.inr (.inr ⟨_, _, rfl, .inr ?_⟩))).trans (congrArg Res.ok (decide_eq_true ?_))
    · decide +kernel
    · intro neg h
      injection h with _ h
      exact absurd h (Nat.mul_ne_zero (by omega) (Nat.ne_of_gt (Nat.two_pow_pos _)))

end Fleece.Props
