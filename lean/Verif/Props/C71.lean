import Verif.Props.C04
import Verif.Props.C09
import Verif.Props.C47

/-!
# C71 A value the encoder hands out can be read safely

`finish_value` needs no `unsafe`. In the debug build it decodes what was written with `from_bytes`; in the release build with
`from_bytes_unchecked`, which trusts the encoder. Full claim: in both builds, whatever was written, every call on every value that
can be reached stays within the buffer and ends. Proved for debug builds and, for release builds, for outputs that `from_bytes`
would accept; refuted for release builds (`C71_refuted`).
-/

namespace Fleece.Props
open Fleece Res

/-- Every reader call on every value that can be reached from `a` stays in the buffer and ends. -/
def SafeToRead (a : Alloced) : Prop := ∀ (F : FloatOps) (scope : Option SharedKeys) (v : Val), Reach a.mem scope a.value v →
  EveryCall (fun x => x ≠ .ub ∧ x ≠ .diverge) a.mem F scope v

/-- **C71, debug builds.** Whatever state the encoder is in and wherever the copy lies, what `finish_value` returns can be
read safely. -/
theorem C71_debug_partial (c : Cfg) (hc : c.dbg = true) (e : Enc) (base : Nat) (a : Alloced) (h : e.finishValue c base = .ok a) :
    SafeToRead a := by
  cases hf : e.finish c with
  | ok out =>
    obtain ⟨h1, h2⟩ := (C47_finish_value_checks c hc e out hf base a).mp h
    intro F scope v hv
    exact C09_traversal_in_bounds a.mem (by rw [h1]) a.value (by rw [h1]; exact h2) a.mem (.inl rfl) F scope v hv
  | _ => unfold Enc.finishValue at h; rw [hf] at h; cases h

/-- **C71, release builds**, for outputs that a debug build's `from_bytes` accepts (see C21 for which these are): `finish_value`
returns, the root is the same, and it can be read safely. -/
theorem C71_release_partial (c : Cfg) (hc : c.dbg = false) (e : Enc) (base : Nat) (out : List UInt8) (v : Val)
    (hf : e.finish c = .ok out) (hv : fromBytes ⟨out, base, true⟩ = .ok v) :
    e.finishValue c base = .ok ⟨⟨out, base, false⟩, v⟩ ∧ SafeToRead ⟨⟨out, base, false⟩, v⟩ := by
  have hu : fromBytesUnchecked ⟨out, base, false⟩ = .ok v := C16_unchecked_agrees_release ⟨out, base, true⟩ rfl v hv
  refine ⟨?_, ?_⟩
  · unfold Enc.finishValue
    simp only [hf, ok_bind, hc, Bool.false_eq_true, if_false, cloneFromBytesUnchecked, hu, pure_eq, unwrap]
  · intro F scope x hx
    exact C09_traversal_in_bounds ⟨out, base, true⟩ rfl v hv _ (.inr rfl) F scope x hx

/-- What the release build writes. -/
def brokenArray : List UInt8 := [0xFF, 0, 0x60, 0x01, 0x80, 0x02, 0x80, 0x02]

set_option maxRecDepth 20000 in
theorem brokenArray_read (base : Nat) : fromBytesUnchecked ⟨brokenArray, base, false⟩ = .ok ⟨2, 4⟩ ∧
    (⟨2, 4⟩ : Val).arrayLen ⟨brokenArray, base, false⟩ = .ok 1 ∧ (⟨2, 4⟩ : Val).get ⟨brokenArray, base, false⟩ 0 = .ub ∧
    (⟨2, 4⟩ : Val).iter ⟨brokenArray, base, false⟩ >>= (fun it => it.step ⟨brokenArray, base, false⟩) = .ub := by
  have h1 : fromBytesUnchecked ⟨brokenArray, base, false⟩ = fromBytesUnchecked ⟨brokenArray, 0, false⟩ := rfl
  have h2 : (⟨2, 4⟩ : Val).get ⟨brokenArray, base, false⟩ 0 = (⟨2, 4⟩ : Val).get ⟨brokenArray, 0, false⟩ 0 := rfl
  have h3 : (⟨2, 4⟩ : Val).iter ⟨brokenArray, base, false⟩ >>= (fun it => it.step ⟨brokenArray, base, false⟩) =
    (⟨2, 4⟩ : Val).iter ⟨brokenArray, 0, false⟩ >>= (fun it => it.step ⟨brokenArray, 0, false⟩) := rfl
  rw [h1, h2, h3]
  exact ⟨by decide +kernel, rfl, by decide +kernel, rfl⟩

/-- **C71 is false of the code.** In a release build write an array with one number, any nonzero `u64` whose last 57 bits are zero
(`2^57`, or `u64::MAX << 57`): all calls succeed, `finish_value` returns the array, and its element cannot be touched: `get(0)`
and the first step of a loop both read outside the buffer. None of this needs `unsafe`. -/
theorem C71_refuted (c : Cfg) (hc : c.dbg = false) (n : UInt64) (h0 : n ≠ 0) (h57 : 2 ^ 57 ∣ n.toNat) (base : Nat) :
    ∃ e a, Enc.new.run c [.beginArray 1, .value (.u64 n), .endArray] = .ok (e, [.ok (), .ok (), .ok ()]) ∧
      e.finishValue c base = .ok a ∧ a.value.asArray a.mem = .ok (some a.value) ∧ a.value.arrayLen a.mem = .ok 1 ∧
      a.value.get a.mem 0 = .ub ∧ a.value.iter a.mem >>= (fun it => it.step a.mem) = .ub := by
  obtain ⟨dbg, chars, sort⟩ := c
  cases hc
  have hw := C04_u64_nothing_left false n h0 57 h57 (Nat.le_refl _)
  have hn0 : n.toNat ≠ 0 := fun h => h0 (UInt64.toNat_inj.mp (by simpa using h))
  have hge : 2 ^ 57 ≤ n.toNat := Nat.le_of_dvd (by omega) h57
  have hst : (Scalar.u64 n).toSized = none := by
    simp only [Scalar.toSized]; rw [if_neg (by omega)]
  have hsz : (Scalar.u64 n).size = 1 := by
    simp only [Scalar.writeTo, writeU64, Scalar.size, Bool.false_eq_true, if_false] at hw
    rw [if_neg (by omega)] at hw
    unfold writeU64Big at hw
    rw [if_neg (by omega)] at hw
    dsimp only at hw
    split at hw
    · have : 1 ≤ u64Size n.toNat := by unfold u64Size; split <;> omega
      show u64Size n.toNat = 1
      omega
    · rename_i hk
      obtain ⟨k, hk⟩ : ∃ k, u64Size n.toNat - 1 = k + 1 := ⟨u64Size n.toNat - 2, by omega⟩
      rw [hk] at hw
      simp [leBytes] at hw
  let e1 : Enc := { Enc.new with stack := [.arr []] }
  let e2 : Enc := { Enc.new with out := [0xFF, 0], stack := [.arr [⟨0x80, 0, 0, 0⟩]] }
  have s1 : Enc.new.step ⟨false, chars, sort⟩ (.beginArray 1) = .ok (e1, .ok ()) := rfl
  have s2 : e1.step ⟨false, chars, sort⟩ (.value (.u64 n)) = .ok (e2, .ok ()) := by
    simp only [Enc.step, Enc.writeValue, e1, List.isEmpty_cons, Bool.false_eq_true, if_false, hst]
    rw [Enc.write_item _ _ (.scalar (.u64 n)) (bs := [0xFF]) (by simpa [Item.writeTo, Item.size] using hw) (by simp only [Item.size]; rw [hsz]; rfl)]
    rfl
  have hb : ∀ v ∈ [(⟨0x80, 0, 0, 0⟩ : SizedValue)], v.Bounded e2.out.length := by
    intro v hv
    simp only [List.mem_singleton] at hv
    subst hv
    intro _
    decide +kernel
  have harr : Enc.arrOut [0xFF, 0] [⟨0x80, 0, 0, 0⟩] = [0xFF, 0, 0x60, 0x01, 0x80, 0x02] := by decide +kernel
  have s3 : e2.step ⟨false, chars, sort⟩ .endArray =
      .ok (Enc.closeEnc { e2 with stack := [], out := [0xFF, 0, 0x60, 0x01, 0x80, 0x02] } 2, .ok ()) := by
    simp only [Enc.step]
    rw [Enc.endArray_eq _ e2 (rest := []) rfl (by decide) hb (by decide)]
    rw [show e2.out = [0xFF, 0] from rfl, harr]
    rw [Enc.finishedCollection_eq _ _ (by decide) (by decide) (by decide)]
    rfl
  refine ⟨Enc.closeEnc { e2 with stack := [], out := [0xFF, 0, 0x60, 0x01, 0x80, 0x02] } 2, ⟨⟨brokenArray, base, false⟩, ⟨2, 4⟩⟩,
    by simp only [Enc.run, s1, s2, s3, ok_bind, pure_eq], ?_, rfl, ?_, ?_, ?_⟩
  · have hf : (Enc.closeEnc { e2 with stack := [], out := [0xFF, 0, 0x60, 0x01, 0x80, 0x02] } 2).finish ⟨false, chars, sort⟩ =
        .ok brokenArray := by
      unfold Enc.finish Enc.closeEnc
      have : [0xFF, 0, 0x60, 0x01, 0x80, 0x02] ++ rootBytes 4 = brokenArray := by decide +kernel
      simp [Enc.endGo, this]
    unfold Enc.finishValue
    simp only [hf, ok_bind, Bool.false_eq_true, if_false, cloneFromBytesUnchecked, (brokenArray_read base).1, pure_eq, unwrap]
  · exact (brokenArray_read base).2.1
  · exact (brokenArray_read base).2.2.1
  · exact (brokenArray_read base).2.2.2

/-- The numbers of the claim. -/
example : (2 ^ 57 : UInt64) ≠ 0 ∧ 2 ^ 57 ∣ (2 ^ 57 : UInt64).toNat := by decide

/-- A value that can be read safely. -/
example : ∃ e, Enc.new.run exampleCfg [.beginArray 1, .value (.u64 5), .endArray] = .ok (e, [.ok (), .ok (), .ok ()]) ∧
    e.finishValue exampleCfg 0 = .ok ⟨⟨[0x60, 0x01, 0x00, 0x05, 0x80, 0x02], 0, true⟩, ⟨0, 4⟩⟩ := ⟨_, rfl, rfl⟩

end Fleece.Props
