import Verif.Proofs.ScalarWrite
import Verif.Model.Encoder

/-! # Lemmas on the encoder's output buffer and on slots -/

namespace Fleece
open Res

/-- Padding to even length. -/
def padEven (l : List UInt8) : List UInt8 := if l.length % 2 ≠ 0 then l ++ [0] else l

theorem padEven_even (l : List UInt8) : (padEven l).length % 2 = 0 := by
  unfold padEven; split
  · simp; omega
  · omega

theorem padEven_of_even {l : List UInt8} (h : l.length % 2 = 0) : padEven l = l := by
  unfold padEven; rw [if_neg (by omega)]

theorem padEven_prefix (l : List UInt8) : l <+: padEven l := by
  unfold padEven; split
  · exact List.prefix_append _ _
  · exact List.prefix_refl _

theorem padEven_length (l : List UInt8) : (padEven l).length = l.length + l.length % 2 := by
  unfold padEven; split
  · simp; omega
  · omega

/-- `_write` when the value writes exactly its size. -/
theorem Enc.write_eq (c : Cfg) (e : Enc) (x : Item) (wide coll : Bool) {bs : List UInt8} {req : Nat}
    (hreq : req = if wide && !coll then max x.size 4 else x.size)
    (hw : x.writeTo c.dbg req wide = .ok (some bs)) (hl : bs.length = req) :
    e.write c x wide coll = .ok ({ e with out := padEven (e.out ++ bs) }, e.out.length % 2 ^ 32) := by
  unfold Enc.write
  simp only [← hreq, hw, ok_bind, hl, if_true, pure_eq, padEven]

/-! ## Pointers -/

theorem beNat4 (a b c d : UInt8) : beNat [a, b, c, d] = ((a.toNat * 256 + b.toNat) * 256 + c.toNat) * 256 + d.toNat := by
  simp [beNat]

theorem beNat2 (a b : UInt8) : beNat [a, b] = a.toNat * 256 + b.toNat := by
  simp [beNat]

theorem or80_toNat (b : UInt8) (h : b.toNat < 128) : (b ||| 0x80).toNat = b.toNat + 128 := by
  revert h b; exact forall_byte (by decide +kernel)

theorem or80_xor (b : UInt8) (h : b.toNat < 128) : (b ||| 0x80) ^^^ 0x80 = b := by
  revert h b; exact forall_byte (by decide +kernel)

theorem fromByte_ge80 (b : UInt8) (h : 128 ≤ b.toNat) : ValueType.fromByte b = .pointer := by
  revert h b; exact forall_byte (by decide +kernel)

theorem and40_small (b : UInt8) (h : b.toNat < 64) : (b ||| 0x80) &&& 0x40 = 0 := by
  revert h b; exact forall_byte (by decide +kernel)

theorem ofNat_toNat (n : Nat) : (UInt8.ofNat n).toNat = n % 256 := by simp

theorem SizedValue.newPointer_spec {off : Nat} (h : off ≤ SizedValue.maxWide) :
    ∃ s, SizedValue.newPointer off = some s ∧ s.type = .pointer ∧ s.pointerOffset = off := by
  unfold SizedValue.maxWide at h
  refine ⟨_, by unfold SizedValue.newPointer SizedValue.maxWide; rw [if_neg (by omega)], ?_, ?_⟩
  · unfold SizedValue.type
    apply fromByte_ge80
    rw [or80_toNat _ (by rw [ofNat_toNat]; omega)]; omega
  · unfold SizedValue.pointerOffset
    rw [or80_xor _ (by rw [ofNat_toNat]; omega), beNat4]
    simp only [ofNat_toNat]
    omega

theorem SizedValue.newPointer_some {off : Nat} {s : SizedValue} (h : SizedValue.newPointer off = some s) :
    off ≤ SizedValue.maxWide ∧ s.type = .pointer ∧ s.pointerOffset = off := by
  have hle : off ≤ SizedValue.maxWide := by
    unfold SizedValue.newPointer at h; split at h
    · cases h
    · omega
  obtain ⟨s', h1, h2, h3⟩ := newPointer_spec hle
  rw [h] at h1; cases h1
  exact ⟨hle, h2, h3⟩

/-- The bytes of a pointer in a slot. -/
def ptrBytes (wide : Bool) (off : Nat) : List UInt8 :=
  let h := off / 2
  if wide then [UInt8.ofNat (h / 2 ^ 24) ||| 0x80, UInt8.ofNat (h / 2 ^ 16), UInt8.ofNat (h / 2 ^ 8), UInt8.ofNat h]
  else [UInt8.ofNat (h / 2 ^ 8) ||| 0x80, UInt8.ofNat h]

/-- The bytes `SizedValue::write_fleece_to` writes into a slot. -/
def slotBytes (wide : Bool) (s : SizedValue) : List UInt8 :=
  if s.type = .pointer then ptrBytes (wide || decide (s.pointerOffset > SizedValue.maxNarrow)) s.pointerOffset
  else if wide then s.bytes else [s.b0 &&& 0xBF, s.b1]

theorem ptrBytes_length (w : Bool) (off : Nat) : (ptrBytes w off).length = if w then 4 else 2 := by
  cases w <;> rfl

theorem slotBytes_length (wide : Bool) (s : SizedValue) :
    (slotBytes wide s).length = if wide then max s.size 4 else s.size := by
  unfold slotBytes SizedValue.size
  by_cases ht : s.type = .pointer
  · rw [if_pos ht, if_pos ht, ptrBytes_length]
    by_cases ho : s.pointerOffset > SizedValue.maxNarrow <;> cases wide <;> simp [ho]
  · rw [if_neg ht, if_neg ht]
    cases wide <;> simp [SizedValue.bytes]

theorem slotBytes_even (wide : Bool) (s : SizedValue) : (slotBytes wide s).length % 2 = 0 := by
  unfold slotBytes
  split
  · rw [ptrBytes_length]; split <;> rfl
  · cases wide <;> simp [SizedValue.bytes]

theorem slotBytes_length_le (wide : Bool) (s : SizedValue) : (slotBytes wide s).length ≤ 4 := by
  unfold slotBytes
  split
  · rw [ptrBytes_length]; split <;> omega
  · cases wide <;> simp [SizedValue.bytes]

theorem slotBytes_writeTo (wide : Bool) (s : SizedValue) {req : Nat}
    (h : req = if wide then max s.size 4 else s.size) : s.writeTo req wide = some (slotBytes wide s) := by
  unfold SizedValue.writeTo slotBytes
  by_cases ht : s.type = .pointer
  · rw [if_pos ht, if_pos ht]
    simp only
    simp only [SizedValue.size, ht, if_true] at h
    by_cases hc : s.pointerOffset > SizedValue.maxNarrow ∨ wide = true
    · rw [if_pos hc]
      have hreq : ¬ req < 4 := by
        rw [h]
        rcases hc with hc | hc
        · cases wide <;> simp [hc]
        · simp only [hc, if_true]; omega
      rw [if_neg hreq]
      have : (wide || decide (s.pointerOffset > SizedValue.maxNarrow)) = true := by
        rcases hc with hc | hc <;> simp [hc]
      rw [this]; rfl
    · rw [if_neg hc]
      have h1 : ¬ s.pointerOffset > SizedValue.maxNarrow := fun h => hc (.inl h)
      have h2 : wide = false := by cases wide with
        | false => rfl
        | true => exact absurd (.inr rfl) hc
      subst h2
      simp only [if_neg h1, Bool.false_eq_true, if_false] at h
      rw [if_neg (by omega)]
      simp [ptrBytes, h1]
  · rw [if_neg ht, if_neg ht]
    simp only [SizedValue.size, ht, if_false] at h
    cases wide with
    | true => simp only [if_true] at h ⊢; rw [if_neg (by omega)]
    | false => simp only [Bool.false_eq_true, if_false] at h ⊢; rw [if_neg (by omega)]

/-- Writing a slot. -/
theorem Enc.write_sized (c : Cfg) (e : Enc) (he : e.out.length % 2 = 0) (wide : Bool) (s : SizedValue) :
    e.write c (.sized s) wide false =
      .ok ({ e with out := e.out ++ slotBytes wide s }, e.out.length % 2 ^ 32) := by
  rw [Enc.write_eq c e (.sized s) wide false (bs := slotBytes wide s) rfl]
  · rw [padEven_of_even]
    have := slotBytes_even wide s
    simp; omega
  · simp only [Item.writeTo]
    rw [slotBytes_writeTo]
    simp [Item.size]
  · rw [slotBytes_length]; simp [Item.size]

theorem Enc.writeSlots_eq (c : Cfg) (wide : Bool) (vs : List SizedValue) : ∀ (e : Enc), e.out.length % 2 = 0 →
    Enc.writeSlots c wide e vs = .ok { e with out := e.out ++ (vs.map (slotBytes wide)).flatten } := by
  induction vs with
  | nil => intro e _; simp [Enc.writeSlots]
  | cons v vs ih =>
    intro e he
    unfold Enc.writeSlots
    rw [Enc.write_sized c e he]
    simp only [ok_bind]
    have := slotBytes_even wide v
    rw [ih _ (by simp; omega)]
    simp

/-! ## Headers -/

/-- The bytes of a collection header. -/
def headerBytes (tag : UInt8) (n : Nat) (wide : Bool) : List UInt8 :=
  (if wide then 0x08 ||| tag ||| UInt8.ofNat (min n 0x07FF / 256) else tag ||| UInt8.ofNat (min n 0x07FF / 256)) ::
    UInt8.ofNat (min n 0x07FF % 256) :: if n ≥ 0x07FF then Varint.write n else []

theorem headerBytes_length (tag : UInt8) {n : Nat} (hn : n < 2 ^ 64) (wide : Bool) :
    (headerBytes tag n wide).length = headerSize n := by
  unfold headerBytes headerSize
  simp only [List.length_cons]
  by_cases h : n ≥ 0x07FF
  · rw [if_pos h, if_pos h, Varint.write_length_eq n hn]; omega
  · rw [if_neg h, if_neg h]; rfl

theorem headerSize_le {n : Nat} (hn : n < 2 ^ 64) : headerSize n ≤ 12 := by
  have h := Varint.write_length_le n
  rw [Varint.write_length_eq n hn] at h
  unfold headerSize; split <;> omega

theorem Enc.write_header (c : Cfg) (e : Enc) {n : Nat} (hn : n < 2 ^ 64) (dict wide : Bool) :
    e.write c (if dict then .dict n else .arr n) wide true =
      .ok ({ e with out := padEven (e.out ++ headerBytes (if dict then 0x70 else 0x60) n wide) },
        e.out.length % 2 ^ 32) := by
  apply Enc.write_eq c e _ wide true (req := headerSize n)
  · cases dict <;> simp [Item.size]
  · cases dict <;> simp only [Bool.false_eq_true, if_false, if_true, Item.writeTo, writeHeader] <;>
      rw [if_neg (by omega)] <;> rfl
  · exact headerBytes_length _ hn wide

end Fleece
