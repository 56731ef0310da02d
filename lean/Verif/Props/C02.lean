import Verif.Proofs.ReadBack

/-! # C02 Strings and binary data of any length round-trip -/

namespace Fleece.Props
open Fleece Res Fleece.Spec

/-- **C02**, strings: written into a buffer of the announced size, a string of any length (Rust slices are shorter
than `2^63`) fills it exactly and reads back as the same string, whatever surrounds it. -/
theorem C02_string (dbg : Bool) (s : RStr) (hs : s.bytes.length < 2 ^ 63) :
    ∃ bs, (Scalar.str s).writeTo dbg (Scalar.str s).size false = .ok (some bs) ∧
      bs.length = (Scalar.str s).size ∧
      ∀ m v, Placed bs m v → v.type m = .ok .string ∧ v.toStr m = .ok s.bytes := by
  obtain ⟨bs, ty, h1, h2, h3⟩ := Scalar.writeTo_ok (F := ⟨fun _ => 0, fun _ => 0, fun _ => 0, fun _ => 0, fun _ => 0,
    fun _ => 0⟩) dbg (x := .str s) hs (Nat.le_refl _)
  refine ⟨bs, h1, h2, fun m v hp => ?_⟩
  obtain ⟨h4, h5⟩ := h3.toStr (Holds.of_placed hp)
  exact ⟨h5, h4⟩

/-- **C02**, binary data. -/
theorem C02_data (dbg : Bool) (d : List UInt8) (hs : d.length < 2 ^ 63) :
    ∃ bs, (Scalar.data d).writeTo dbg (Scalar.data d).size false = .ok (some bs) ∧
      bs.length = (Scalar.data d).size ∧
      ∀ m v, Placed bs m v → v.type m = .ok .data ∧ v.toData m = .ok d := by
  obtain ⟨bs, ty, h1, h2, h3⟩ := Scalar.writeTo_ok (F := ⟨fun _ => 0, fun _ => 0, fun _ => 0, fun _ => 0, fun _ => 0,
    fun _ => 0⟩) dbg (x := .data d) hs (Nat.le_refl _)
  refine ⟨bs, h1, h2, fun m v hp => ?_⟩
  obtain ⟨h4, h5⟩ := h3.toData (Holds.of_placed hp)
  exact ⟨h5, h4⟩

/-- The announced size is even tight: a buffer one byte shorter is refused, not overrun. -/
theorem C02_short_buffer (dbg : Bool) (d : List UInt8) (buf : Nat) (wide : Bool) (hb : buf < (Scalar.data d).size) :
    (Scalar.data d).writeTo dbg buf wide = .ok none := by
  simp only [Scalar.writeTo, writeData, Scalar.size] at *
  rw [if_pos hb]

theorem placed_prefix {bs rest : List UInt8} {m : Mem} {v : Val} (h : Placed (bs ++ rest) m v) : Placed bs m v := by
  obtain ⟨pre, post, hd, hp, h1, h2⟩ := h
  rw [List.length_append] at h1
  exact ⟨pre, rest ++ post, by rw [hd]; simp, hp, by omega, by rw [List.length_append] at *; omega⟩

/-- **C02**, wide slots: written into a four-byte slot, a string or data of at most one byte takes it whole, the rest being
zero, and reads back. A buffer of two or three bytes, which is all that was announced, makes the write panic. -/
theorem C02_wide_slot (dbg : Bool) (x : Scalar) (hx : x.Tiny) :
    (∀ buf, 4 ≤ buf → ∃ bs, x.writeTo dbg buf true = .ok (some bs) ∧ bs.length = 4 ∧ bs.drop 2 = [0, 0] ∧
      (∀ m v, Placed bs m v → match x with
        | .str s => v.type m = .ok .string ∧ v.toStr m = .ok s.bytes
        | .data d => v.type m = .ok .data ∧ v.toData m = .ok d
        | _ => False)) ∧
    ∀ buf, x.size ≤ buf → buf < 4 → x.writeTo dbg buf true = .panic := by
  have key : ∀ bs0 : List UInt8, bs0.length = 2 → (∃ t, x.writeTo dbg x.size false = .ok (some t) ∧ t = bs0) →
      (∀ buf, 4 ≤ buf → x.writeTo dbg buf true = .ok (some (bs0 ++ [0, 0]))) →
      ∀ buf, 4 ≤ buf → ∃ bs, x.writeTo dbg buf true = .ok (some bs) ∧ bs.length = 4 ∧ bs.drop 2 = [0, 0] ∧
        (∀ m v, Placed bs m v → match x with
          | .str s => v.type m = .ok .string ∧ v.toStr m = .ok s.bytes
          | .data d => v.type m = .ok .data ∧ v.toData m = .ok d
          | _ => False) := by
    intro bs0 hl ⟨_, hn, rfl⟩ hw buf hb
    refine ⟨_, hw buf hb, by simp [hl], by simp [← hl], fun m v hp => ?_⟩
    have hp0 := placed_prefix hp
    cases x with
    | str s =>
      obtain ⟨bs, h1, _, h2⟩ := C02_string dbg s (by simp only [Scalar.Tiny] at hx; omega)
      rw [hn] at h1; cases h1
      exact h2 m v hp0
    | data d =>
      obtain ⟨bs, h1, _, h2⟩ := C02_data dbg d (by simp only [Scalar.Tiny] at hx; omega)
      rw [hn] at h1; cases h1
      exact h2 m v hp0
    | _ => exact hx
  have small : ∀ (tag : UInt8) (s : List UInt8), s.length ≤ 1 → dataSize s.length = 2 := by
    intro _ s h; unfold dataSize; rw [if_pos h]
  cases x with
  | str s =>
    match s, hx with
    | ⟨[], hs⟩, _ =>
      refine ⟨key [0x40, 0] rfl ⟨_, rfl, rfl⟩ fun buf hb => ?_, fun buf h1 h2 => ?_⟩
      all_goals simp only [Scalar.writeTo, writeData, Scalar.size, small 0 [] (by simp)] at *
      all_goals rw [if_neg (by omega)]; simp [writeString]; omega
    | ⟨[b], hs⟩, _ =>
      refine ⟨key [0x40 ||| 1, b] rfl ⟨_, rfl, rfl⟩ fun buf hb => ?_, fun buf h1 h2 => ?_⟩
      all_goals simp only [Scalar.writeTo, writeData, Scalar.size, small 0 [b] (by simp)] at *
      all_goals rw [if_neg (by omega)]; simp [writeString]; omega
    | ⟨_ :: _ :: _, _⟩, h => simp [Scalar.Tiny] at h
  | data d =>
    match d, hx with
    | [], _ =>
      refine ⟨key [0x50, 0] rfl ⟨_, rfl, rfl⟩ fun buf hb => ?_, fun buf h1 h2 => ?_⟩
      all_goals simp only [Scalar.writeTo, writeData, Scalar.size, small 0 [] (by simp)] at *
      all_goals rw [if_neg (by omega)]; simp [writeString]; omega
    | [b], _ =>
      refine ⟨key [0x50 ||| 1, b] rfl ⟨_, rfl, rfl⟩ fun buf hb => ?_, fun buf h1 h2 => ?_⟩
      all_goals simp only [Scalar.writeTo, writeData, Scalar.size, small 0 [b] (by simp)] at *
      all_goals rw [if_neg (by omega)]; simp [writeString]; omega
    | _ :: _ :: _, h => simp [Scalar.Tiny] at h
  | _ => cases hx

/-- What is wrong in this version of the code: kept inline in a 2-byte slot, no string and no data of at most one byte
survives. `SizedValue::write_fleece_to` clears the bit that makes it a string, so it is read as an integer. -/
theorem C02_tiny_in_narrow_slot (x : Scalar) (hx : x.Tiny) :
    ∃ s bs, x.toSized = some s ∧ s.writeTo 2 false = some bs ∧
      ∀ m v, Placed bs m v → v.type m = .ok .short ∨ v.type m = .ok .int := by
  have hstr : ValueType.fromByte (0x40 &&& 0xBF) = .short ∧ ValueType.fromByte ((0x40 ||| 1) &&& 0xBF) = .short ∧
    ValueType.fromByte (0x50 &&& 0xBF) = .int ∧ ValueType.fromByte ((0x50 ||| 1) &&& 0xBF) = .int := by decide
  obtain ⟨q1, q2, q3, q4⟩ := hstr
  have h4 : ∀ b ∈ [(0x40 : UInt8), 0x40 ||| 1, 0x50, 0x50 ||| 1], ValueType.fromByte b ≠ .pointer := by decide
  cases x with
  | str s =>
    match s, hx with
    | ⟨[], _⟩, _ =>
      refine ⟨_, [0x40 &&& 0xBF, 0], rfl, sized_writeTo (h4 _ (by simp [SizedValue.newNarrow])) (Nat.le_refl _), 
        fun m v hp => .inl ?_⟩
      rw [(Holds.of_placed hp).type, q1]
    | ⟨[c], _⟩, _ =>
      refine ⟨_, [(0x40 ||| 1) &&& 0xBF, c], rfl, sized_writeTo (h4 _ (by simp [SizedValue.newNarrow])) (Nat.le_refl _), 
        fun m v hp => .inl ?_⟩
      rw [(Holds.of_placed hp).type, q2]
    | ⟨_ :: _ :: _, _⟩, h => simp [Scalar.Tiny] at h
  | data d =>
    match d, hx with
    | [], _ =>
      refine ⟨_, [0x50 &&& 0xBF, 0], rfl, sized_writeTo (h4 _ (by simp [SizedValue.newNarrow])) (Nat.le_refl _), 
        fun m v hp => .inr ?_⟩
      rw [(Holds.of_placed hp).type, q3]
    | [c], _ =>
      refine ⟨_, [(0x50 ||| 1) &&& 0xBF, c], rfl, sized_writeTo (h4 _ (by simp [SizedValue.newNarrow])) (Nat.le_refl _), 
        fun m v hp => .inr ?_⟩
      rw [(Holds.of_placed hp).type, q4]
    | _ :: _ :: _, h => simp [Scalar.Tiny] at h
  | _ => cases hx

/-- A 15-byte string (the first length that needs a varint), placed between other bytes. -/
example : (Scalar.data (List.replicate 15 7)).writeTo true 17 false =
      .ok (some (0x5F :: 15 :: List.replicate 15 7)) ∧
    Placed (0x5F :: 15 :: List.replicate 15 7) ⟨[1, 2] ++ (0x5F :: 15 :: List.replicate 15 7) ++ [9], 0, true⟩ ⟨2, 18⟩ :=
  ⟨by decide +kernel, [1, 2], [9], rfl, rfl, by decide, by decide⟩

example : (Scalar.data [65]).Tiny := by simp [Scalar.Tiny]

end Fleece.Props
