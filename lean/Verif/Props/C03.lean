import Verif.Proofs.ReadBack
import Verif.Model.Encoder

/-! # C03 Signed integers are written and read back unchanged -/

namespace Fleece.Props
open Fleece Res Fleece.Spec

/-- **C03**, as far as it holds: a number of any signed type between -2048 and 2047 is accepted as an inline value, and
from the slot written for it, narrow or wide, `to_int` reads the same number. The full statement is for every number;
outside the range it is false, see below. -/
theorem C03_signed_partial (x : Scalar) (n : Int) (hx : x.signed = some n) (hn : ShortRange n) :
    ∃ s, x.toSized = some s ∧ ∀ wide, ∃ bs, s.writeTo (Enc.slotWidth wide) wide = some bs ∧
      bs.length = Enc.slotWidth wide ∧
      ∀ m F v, Placed bs m v → v.type m = .ok .short ∧ v.toInt m F = .ok n := by
  obtain ⟨b0, b1, hs, h16, hv⟩ := i16Sized_ok hn
  have hsz : x.toSized = some (SizedValue.newNarrow b0 b1) := by
    cases x <;> simp only [Scalar.signed, reduceCtorEq, Option.some.injEq] at hx
    all_goals simp only [Scalar.toSized, i64Sized_eq, hx, bmod16_of_short hn, hs]
  have hnp : (SizedValue.newNarrow b0 b1).type ≠ .pointer := by
    show ValueType.fromByte b0 ≠ _
    rw [fromByte_short b0 h16]; simp
  refine ⟨_, hsz, fun wide => ?_⟩
  cases wide with
  | false =>
    refine ⟨_, sized_writeTo hnp (Nat.le_refl 2), rfl, fun m F v hp => ?_⟩
    have hh := Holds.of_placed hp
    simp only [SizedValue.newNarrow] at hh
    rw [and_bf_small b0 (by omega)] at hh
    have := short_bytes (F := F) (b1 := b1) (tl := []) h16
    rw [hv] at this
    exact ⟨this.type m v hh, this.toInt hh (by simp)⟩
  | true =>
    refine ⟨[b0, b1, 0, 0], ?_, rfl, fun m F v hp => ?_⟩
    · unfold SizedValue.writeTo
      rw [if_neg hnp]; simp [Enc.slotWidth, SizedValue.bytes, SizedValue.newNarrow]
    · have hh := Holds.of_placed hp
      have := short_bytes (F := F) (b1 := b1) (tl := [0, 0]) h16
      rw [hv] at this
      exact ⟨this.type m v hh, this.toInt hh (by simp)⟩

/-- Outside the range the 16 lowest bits decide. If they happen to be a number between -2048 and 2047, `write_value`
does exactly what it does for that number: the encoder cannot tell 65541 from 5. -/
theorem C03_signed_truncated (c : Cfg) (e : Enc) (n k : Int64) (hk : k.toInt = Int.bmod n.toInt (2 ^ 16))
    (hr : ShortRange k.toInt) : e.writeValue c (.i64 n) = e.writeValue c (.i64 k) := by
  have h1 : (Scalar.i64 n).toSized = (Scalar.i64 k).toSized := by
    simp only [Scalar.toSized, i64Sized_eq, ← hk, bmod16_of_short hr]
  obtain ⟨b0, b1, hs, _, _⟩ := i16Sized_ok hr
  unfold Enc.writeValue
  rw [h1]
  simp only [Scalar.toSized, i64Sized_eq, bmod16_of_short hr, hs]

/-- If they are not, the writers of `i16` and `i64` call each other forever: no recursion depth suffices. -/
theorem C03_signed_diverges (fuel : Nat) (is16 : Bool) (n : Int) (buf : Nat) (wide : Bool)
    (h : ¬ ShortRange (Int.bmod n (2 ^ 16))) (h16 : is16 = true → Int.bmod n (2 ^ 16) = n) :
    writeSigned fuel is16 n buf wide = .diverge := by
  induction fuel generalizing is16 n with
  | zero => rfl
  | succ f ih =>
    cases is16 with
    | false =>
      rw [writeSigned64_eq]
      exact ih true _ (by rwa [Int.bmod_bmod]) (fun _ => Int.bmod_bmod)
    | true =>
      unfold writeSigned
      have hn := h16 rfl
      rw [hn] at h
      unfold ShortRange at h
      rw [if_pos (by omega)]
      exact ih false n (by rw [hn]; exact h) (by simp)

/-- So `write_value` overflows the stack, in every encoder that has an open collection. -/
theorem C03_write_value_diverges (c : Cfg) (e : Enc) (n : Int64) (he : e.stack ≠ [])
    (h : ¬ ShortRange (Int.bmod n.toInt (2 ^ 16))) : e.writeValue c (.i64 n) = .diverge := by
  have hs : (Scalar.i64 n).toSized = none := by
    simp only [Scalar.toSized, i64Sized_eq, i16Sized]
    rw [if_pos (by unfold ShortRange at h; omega)]
  have hd : (Scalar.i64 n).writeTo c.dbg 2 false = .diverge := C03_signed_diverges _ false _ _ _ h (by simp)
  unfold Enc.writeValue
  rw [if_neg (by simp [he]), hs]
  simp only [Enc.write, Item.writeTo, Item.size, Scalar.size, Bool.false_and, Bool.false_eq_true, if_false, hd,
    diverge_bind]

/-- The same for `i32`. -/
theorem C03_write_value_i32_diverges (c : Cfg) (e : Enc) (n : Int32) (he : e.stack ≠ [])
    (h : ¬ ShortRange (Int.bmod n.toInt (2 ^ 16))) : e.writeValue c (.i32 n) = .diverge := by
  have hs : (Scalar.i32 n).toSized = none := by
    simp only [Scalar.toSized, i64Sized_eq, i16Sized]
    rw [if_pos (by unfold ShortRange at h; omega)]
  have hd : (Scalar.i32 n).writeTo c.dbg 2 false = .diverge := C03_signed_diverges _ false _ _ _ h (by simp)
  unfold Enc.writeValue
  rw [if_neg (by simp [he]), hs]
  simp only [Enc.write, Item.writeTo, Item.size, Scalar.size, Bool.false_and, Bool.false_eq_true, if_false, hd,
    diverge_bind]

/-- Witnesses of the hypotheses: -2048 is kept; 65541 is confused with 5; 40000 (as `i64`) diverges. -/
example : (Scalar.i32 (-2048)).signed = some (-2048) ∧ ShortRange (-2048) := by decide
example : (5 : Int64).toInt = Int.bmod (65541 : Int64).toInt (2 ^ 16) ∧ ShortRange (5 : Int64).toInt := by decide
example : ¬ ShortRange (Int.bmod (40000 : Int64).toInt (2 ^ 16)) := by decide

end Fleece.Props
