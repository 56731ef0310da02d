import Verif.Proofs.ReadBack
import Verif.Model.Encoder
import Verif.Model.Constants

/-! # C05 Floats and constants are written and read back bit-exactly -/

namespace Fleece.Props
open Fleece Res Fleece.Spec

/-- **C05**, `f64`: any bit pattern (infinities and NaNs included) is written out of line in its announced size, and
`to_double` gives the same bits. -/
theorem C05_f64 (dbg : Bool) (bits : UInt64) :
    (Scalar.f64 bits).toSized = none ∧
    ∃ bs, (Scalar.f64 bits).writeTo dbg (Scalar.f64 bits).size false = .ok (some bs) ∧
      bs.length = (Scalar.f64 bits).size ∧
      ∀ m F v, Placed bs m v → v.type m = .ok .double64 ∧ v.toDouble m F = .ok bits := by
  refine ⟨rfl, _, rfl, by simp [leBytes_length, Scalar.size], fun m F v hp => ?_⟩
  have hh := Holds.of_placed hp
  exact ⟨(double_bytes (F := F) bits).type m v hh, (double_bytes bits).toDouble hh⟩

/-- **C05**, `f32`: `to_double` gives the exact conversion of the bits, and `to_float` the bits themselves whenever
converting them to `f64` and back gives them back (IEEE 754: always, except that it may quiet a signalling NaN). -/
theorem C05_f32 (dbg : Bool) (bits : UInt32) :
    (Scalar.f32 bits).toSized = none ∧
    ∃ bs, (Scalar.f32 bits).writeTo dbg (Scalar.f32 bits).size false = .ok (some bs) ∧
      bs.length = (Scalar.f32 bits).size ∧
      ∀ m F v, Placed bs m v → v.type m = .ok .float ∧ v.toDouble m F = .ok (F.widen bits) ∧
        (F.narrow (F.widen bits) = bits → v.toFloat m F = .ok bits) := by
  refine ⟨rfl, _, rfl, by simp [leBytes_length, Scalar.size], fun m F v hp => ?_⟩
  have hh := Holds.of_placed hp
  have hd := (float_bytes (F := F) bits).toDouble hh
  refine ⟨(float_bytes (F := F) bits).type m v hh, hd, fun h => ?_⟩
  simp only [Val.toFloat, hd, ok_bind, h, pure_eq]

/-- The type a constant should be read with. -/
def constType : Scalar → Option ValueType
  | .bool false => some .false
  | .bool true => some .true
  | .null => some .null
  | .undefined => some .undefined
  | _ => none

/-- **C05**, constants: they are accepted as inline values, and from the slot written for them, narrow or wide, they
read back as themselves. -/
theorem C05_constants (x : Scalar) (ty : ValueType) (hx : constType x = some ty) :
    ∃ s, x.toSized = some s ∧ ∀ wide, ∃ bs, s.writeTo (Enc.slotWidth wide) wide = some bs ∧
      bs.length = Enc.slotWidth wide ∧
      ∀ m F v scope, Placed bs m v → v.type m = .ok ty ∧ readTree m F scope 1 v = .ok (x.tree F) := by
  have hlist : ∀ (b : UInt8) (ty : ValueType) (t : Tree),
      (b = 0x30 ∧ ty = .null ∧ t = .null) ∨ (b = 0x3C ∧ ty = .undefined ∧ t = .undefined) ∨
      (b = 0x34 ∧ ty = .false ∧ t = .bool false) ∨ (b = 0x38 ∧ ty = .true ∧ t = .bool true) →
      ∀ wide, ∃ bs, (SizedValue.newNarrow b 0).writeTo (Enc.slotWidth wide) wide = some bs ∧
      bs.length = Enc.slotWidth wide ∧
      ∀ m (F : FloatOps) v scope, Placed bs m v → v.type m = .ok ty ∧ readTree m F scope 1 v = .ok t := by
    intro b ty t h wide
    have hsl := (constant_sized (F := ⟨fun _ => 0, fun _ => 0, fun _ => 0, fun _ => 0, fun _ => 0, fun _ => 0⟩)
      (b := b) (t := t) (by
        rcases h with ⟨h1, _, h2⟩ | ⟨h1, _, h2⟩ | ⟨h1, _, h2⟩ | ⟨h1, _, h2⟩ <;> simp [h1, h2])).notPointer
    have hb : b.toNat < 64 := by
      rcases h with ⟨rfl, _⟩ | ⟨rfl, _⟩ | ⟨rfl, _⟩ | ⟨rfl, _⟩ <;> decide
    cases wide with
    | false =>
      refine ⟨_, sized_writeTo hsl (Nat.le_refl 2), rfl, fun m F v scope hp => ?_⟩
      have hh := Holds.of_placed hp
      simp only [SizedValue.newNarrow] at hh
      rw [and_bf_small b hb] at hh
      have := constant_bytes (F := F) (c := 0) (tl := []) h
      exact ⟨this.type m v hh, this.read m v scope 0 hh⟩
    | true =>
      refine ⟨[b, 0, 0, 0], ?_, rfl, fun m F v scope hp => ?_⟩
      · unfold SizedValue.writeTo
        rw [if_neg hsl]; simp [Enc.slotWidth, SizedValue.bytes, SizedValue.newNarrow]
      · have hh := Holds.of_placed hp
        have := constant_bytes (F := F) (c := 0) (tl := [0, 0]) h
        exact ⟨this.type m v hh, this.read m v scope 0 hh⟩
  match x, hx with
  | .bool false, hx => cases hx; exact ⟨_, rfl, hlist _ _ _ (by simp)⟩
  | .bool true, hx => cases hx; exact ⟨_, rfl, hlist _ _ _ (by simp)⟩
  | .null, hx => cases hx; exact ⟨_, rfl, hlist _ _ _ (by simp)⟩
  | .undefined, hx => cases hx; exact ⟨_, rfl, hlist _ _ _ (by simp)⟩

/-- **C05**, constants written directly (`write_fleece_to`): with a buffer of at least the width of the slot they read back as
themselves, with a smaller one nothing is written. -/
theorem C05_written (dbg : Bool) (x : Scalar) (ty : ValueType) (hx : constType x = some ty) (buf : Nat) (wide : Bool) :
    (Enc.slotWidth wide ≤ buf → ∃ bs, x.writeTo dbg buf wide = .ok (some bs) ∧ bs.length = Enc.slotWidth wide ∧
      ∀ m F v scope, Placed bs m v → v.type m = .ok ty ∧ readTree m F scope 1 v = .ok (x.tree F)) ∧
    (buf < Enc.slotWidth wide → x.writeTo dbg buf wide = .ok none) := by
  have key : ∀ (b : UInt8) (ty : ValueType) (t : Tree),
      (b = 0x30 ∧ ty = .null ∧ t = .null) ∨ (b = 0x3C ∧ ty = .undefined ∧ t = .undefined) ∨
      (b = 0x34 ∧ ty = .false ∧ t = .bool false) ∨ (b = 0x38 ∧ ty = .true ∧ t = .bool true) →
      (Enc.slotWidth wide ≤ buf → ∃ bs, writeConstant b buf wide = some bs ∧ bs.length = Enc.slotWidth wide ∧
        ∀ m (F : FloatOps) v scope, Placed bs m v → v.type m = .ok ty ∧ readTree m F scope 1 v = .ok t) ∧
      (buf < Enc.slotWidth wide → writeConstant b buf wide = none) := by
    intro b ty t h
    cases wide with
    | false =>
      refine ⟨fun hb => ⟨[b, 0], ?_, rfl, fun m F v scope hp => ?_⟩, fun hb => ?_⟩
      · simp only [writeConstant, Enc.slotWidth, Bool.false_eq_true, if_false] at hb ⊢
        rw [if_neg (by omega)]
      · have hh := Holds.of_placed hp
        have := constant_bytes (F := F) (c := 0) (tl := []) h
        exact ⟨this.type m v hh, this.read m v scope 0 hh⟩
      · simp only [writeConstant, Enc.slotWidth, Bool.false_eq_true, if_false] at hb ⊢
        rw [if_pos hb]
    | true =>
      refine ⟨fun hb => ⟨[b, 0, 0, 0], ?_, rfl, fun m F v scope hp => ?_⟩, fun hb => ?_⟩
      · simp only [writeConstant, Enc.slotWidth, if_true] at hb ⊢
        rw [if_neg (by omega)]
      · have hh := Holds.of_placed hp
        have := constant_bytes (F := F) (c := 0) (tl := [0, 0]) h
        exact ⟨this.type m v hh, this.read m v scope 0 hh⟩
      · simp only [writeConstant, Enc.slotWidth, if_true] at hb ⊢
        rw [if_pos hb]
  have fin : ∀ (b : UInt8) (t : Tree), (∀ F : FloatOps, x.tree F = t) → x.writeTo dbg buf wide = .ok (writeConstant b buf wide) →
      ((b = 0x30 ∧ ty = .null ∧ t = .null) ∨ (b = 0x3C ∧ ty = .undefined ∧ t = .undefined) ∨
      (b = 0x34 ∧ ty = .false ∧ t = .bool false) ∨ (b = 0x38 ∧ ty = .true ∧ t = .bool true)) →
      (Enc.slotWidth wide ≤ buf → ∃ bs, x.writeTo dbg buf wide = .ok (some bs) ∧ bs.length = Enc.slotWidth wide ∧
        ∀ m F v scope, Placed bs m v → v.type m = .ok ty ∧ readTree m F scope 1 v = .ok (x.tree F)) ∧
      (buf < Enc.slotWidth wide → x.writeTo dbg buf wide = .ok none) := by
    intro b t ht hw h
    obtain ⟨k1, k2⟩ := key b ty t h
    refine ⟨fun hb => ?_, fun hb => by rw [hw, k2 hb]⟩
    obtain ⟨bs, g1, g2, g3⟩ := k1 hb
    exact ⟨bs, by rw [hw, g1], g2, fun m F v scope hp => by rw [ht F]; exact g3 m F v scope hp⟩
  match x, hx, fin with
  | .bool false, hx, fin => cases hx; exact fin _ _ (fun _ => rfl) rfl (by simp)
  | .bool true, hx, fin => cases hx; exact fin _ _ (fun _ => rfl) rfl (by simp)
  | .null, hx, fin => cases hx; exact fin _ _ (fun _ => rfl) rfl (by simp)
  | .undefined, hx, fin => cases hx; exact fin _ _ (fun _ => rfl) rfl (by simp)

example : Scalar.writeTo true (.bool true) 4 true = .ok (some [0x38, 0, 0, 0]) ∧ Scalar.writeTo true (.bool true) 3 true = .ok none := ⟨rfl, rfl⟩

/-- The bytes that `Value::null`, `Value::undefined` and `Value::bool` refer to. -/
def staticBytes : Scalar → Option (List UInt8)
  | .null => some constNull
  | .undefined => some constUndefined
  | .bool b => some (constBool b)
  | _ => none

/-- **C05**, `Value::null`, `Value::undefined` and `Value::bool`: at any address they are what they say, they are documents that
`from_bytes` accepts, and their bytes are those the encoder writes for the same constant into a narrow slot. -/
theorem C05_statics (x : Scalar) (bs : List UInt8) (hx : staticBytes x = some bs) (base : Nat) (hb : base + 2 < 2 ^ 64) (dbg : Bool)
    (F : FloatOps) (scope : Option SharedKeys) :
    readTree ⟨bs, base, dbg⟩ F scope 1 ⟨0, 2⟩ = .ok (x.tree F) ∧ fromBytes ⟨bs, base, dbg⟩ = .ok ⟨0, 2⟩ ∧
      ∃ s, x.toSized = some s ∧ s.writeTo 2 false = some bs := by
  have key : ∀ b : UInt8, b ∈ [(0x30 : UInt8), 0x3C, 0x38, 0x34] → fromBytes ⟨[b, 0], base, dbg⟩ = .ok ⟨0, 2⟩ := by
    intro b hmem
    have h1 : Val.type ⟨[b, 0], base, dbg⟩ ⟨0, 2⟩ = .ok (ValueType.fromByte b) := rfl
    have h2 : ValueType.fromByte b ∈ [ValueType.null, .undefined, .false, .true] := by
      clear h1; revert hmem; revert b; decide
    have h3 : findRoot ⟨[b, 0], base, dbg⟩ = .ok ⟨0, 2⟩ := by
      unfold findRoot
      dsimp only [List.length_cons, List.length_nil]
      rw [if_neg (by omega), h1]
      simp only [ok_bind]
      rw [if_neg (by intro h; rw [h] at h2; simp at h2)]
      rfl
    unfold fromBytes fromBytesGo
    rw [h3]
    simp only [ok_bind]
    have h4 : validateGo ⟨[b, 0], base, dbg⟩ (fuelFor 2) false false ⟨0, 2⟩ 2 = .ok () := by
      have h5 : Val.requiredSize ⟨[b, 0], base, dbg⟩ ⟨0, 2⟩ = .ok 2 := by
        unfold Val.requiredSize
        rw [h1]
        simp only [List.mem_cons, List.not_mem_nil, or_false] at h2
        rcases h2 with h | h | h | h <;> simp [h, ok_bind]
      unfold fuelFor
      unfold validateGo
      rw [h1]
      simp only [List.mem_cons, List.not_mem_nil, or_false] at h2
      rcases h2 with h | h | h | h <;> simp [h, ok_bind, h5]
    exact by rw [show (Mem.data ⟨[b, 0], base, dbg⟩).length = 2 from rfl, h4]; rfl
  cases x with
  | null => cases hx; exact ⟨rfl, key _ (by decide), _, rfl, rfl⟩
  | undefined => cases hx; exact ⟨rfl, key _ (by decide), _, rfl, rfl⟩
  | bool b => cases hx; cases b <;> exact ⟨rfl, key _ (by decide), _, rfl, rfl⟩
  | _ => cases hx

/-- A NaN, written between other bytes. -/
example : (Scalar.f64 0x7FF8000000000001).writeTo true 10 false =
      .ok (some [0x28, 0, 1, 0, 0, 0, 0, 0, 0xF8, 0x7F]) ∧
    Placed [0x28, 0, 1, 0, 0, 0, 0, 0, 0xF8, 0x7F] ⟨[0x28, 0, 1, 0, 0, 0, 0, 0, 0xF8, 0x7F] ++ [0x80, 5], 0, true⟩
      ⟨0, 10⟩ := ⟨by decide +kernel, [], [0x80, 5], rfl, rfl, by decide, by decide⟩

example : constType (.bool true) = some .true := rfl

example : staticBytes (.bool true) = some [0x38, 0] := rfl

end Fleece.Props
