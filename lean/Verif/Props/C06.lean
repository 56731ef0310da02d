import Verif.Proofs.Profile

/-! # C06 Decoding always terminates

`fromBytesGo m fuel` is `Value::from_bytes` with its recursion cut off at depth `fuel`; `diverge` means the
cut-off was reached. -/

namespace Fleece.Props
open Fleece Res

/-- **C06**, overflow-checked build: no input makes the decoder run forever. Its recursion depth is at most
`(n+1)^2 + 1` for `n` bytes, and from there on the depth limit has no influence on the result.
The full statement (both profiles) is false, see `C06_release_recurses_forever`. -/
theorem C06_terminates_partial (m : Mem) (hdbg : m.dbg = true) (fuel : Nat)
    (hf : (m.data.length + 1) * (m.data.length + 1) + 1 ≤ fuel) :
    fromBytesGo m fuel ≠ .diverge ∧ fromBytesGo m fuel = fromBytes m := by
  have h := (safe_iff _).mp (fromBytesGo_safe m hdbg fuel hf)
  have h0 := (safe_iff _).mp (fromBytesGo_safe m hdbg (fuelFor m.data.length) (Nat.le_refl _))
  refine ⟨h.2, ?_⟩
  rcases fromBytesGo_mono m (fuelFor m.data.length) fuel hf with h1 | h1
  · exact absurd h1 h0.2
  · exact h1.symm

/-- **C06**, release build: it terminates on every input on which the overflow-checked build does not panic. -/
theorem C06_terminates_release_partial (m : Mem) (hdbg : m.dbg = true) (hp : fromBytes m ≠ .panic) :
    fromBytesGo { m with dbg := false } (fuelFor m.data.length) ≠ .diverge := by
  rcases fromBytesGo_prof hdbg (fuelFor m.data.length) with h | h
  · exact absurd h hp
  · show fromBytesGo m.rel _ ≠ .diverge
    rw [← h]
    exact ((safe_iff _).mp (fromBytesGo_safe m hdbg _ (Nat.le_refl _))).2

/-- A 14-byte input: a narrow array announcing `2^63` elements (`2^63 * 2` wraps to 0), whose first element is
the root pointer itself. -/
def loopBytes : List UInt8 := [0x67, 0xFF, 0x80, 0x80, 0x80, 0x80, 0x80, 0x80, 0x80, 0x80, 0x80, 0x01, 0x80, 0x06]

private def lm : Mem := { data := loopBytes, dbg := false }

private theorem validateElems_succ (m : Mem) (rec : Val → Nat → R Unit) (w n cur : Nat) (hn : 0 < n) :
    validateElems m rec w n cur = (do
      let e ← fromRaw m cur w
      rec e (cur + w)
      validateElems m rec w (n - 1) (cur + w)) := by
  obtain ⟨k, rfl⟩ : ∃ k, n = k + 1 := ⟨n - 1, by omega⟩
  rfl

private theorem loop_aux (m : Mem) (n : Nat) (hn : 0 < n)
    (h1 : (⟨0, 12⟩ : Val).type m = .ok .array) (h2 : (⟨0, 12⟩ : Val).isWide m = .ok false)
    (h3 : (⟨0, 12⟩ : Val).arrayLen m = .ok n) (h4 : (⟨0, 12⟩ : Val).firstPos m = .ok 12)
    (h5 : usizeMul (ε := DecodeError) m.dbg n 2 = .ok 0)
    (h6 : usizeAdd (ε := DecodeError) m.dbg (m.base + 12) 0 = .ok 12)
    (h7 : fromRaw m 12 2 = .ok ⟨12, 2⟩)
    (h8 : (⟨12, 2⟩ : Val).type m = .ok .pointer) (h9 : derefChecked m false ⟨12, 2⟩ = .ok ⟨0, 12⟩)
    (fuel : Nat) (a w : Bool) (de : Nat) (hde : 12 ≤ de) :
    validateGo m fuel a w ⟨0, 12⟩ de = .diverge ∧
    validateGo m fuel true false ⟨12, 2⟩ 14 = .diverge := by
  induction fuel generalizing a w de with
  | zero => exact ⟨rfl, rfl⟩
  | succ f ih =>
    constructor
    · unfold validateGo
      simp only [h1, ok_bind]
      unfold arrayValidate
      simp only [h2, h3, h4, ok_bind, Bool.false_eq_true, if_false, h5, Nat.zero_add, h6]
      rw [if_neg (by omega), validateElems_succ _ _ _ _ _ hn]
      simp only [h7, ok_bind, (ih a w de hde).2]
      rfl
    · unfold validateGo
      simp only [h8, h9, ok_bind]
      exact (ih false false 12 (by omega)).1

/-- The full statement of C06 is false of a build without overflow checks: on `loopBytes` the decoder recurses
deeper than any bound. -/
theorem C06_release_recurses_forever (fuel : Nat) :
    fromBytesGo { data := loopBytes, dbg := false } fuel = .diverge := by
  have h : findRoot lm = .ok ⟨0, 12⟩ := by decide +kernel
  show fromBytesGo lm fuel = .diverge
  unfold fromBytesGo
  have hl := (loop_aux lm (2 ^ 63) (by omega) (by decide +kernel) (by decide +kernel) (by decide +kernel)
    (by decide +kernel) (by decide +kernel) (by decide +kernel) (by decide +kernel) (by decide +kernel)
    (by decide +kernel) fuel false false lm.data.length (by decide)).1
  simp only [h, ok_bind, hl]
  rfl

/-- The same input makes the overflow-checked build panic. -/
example : fromBytes { data := loopBytes } = .panic := by decide +kernel
/-- A self-referential document is an error, not a loop. -/
example : fromBytes { data := [0x60, 0x01, 0x80, 0x01, 0x80, 0x02] } = .ok ⟨0, 4⟩ ∨
    ∃ e, fromBytes { data := [0x60, 0x01, 0x80, 0x01, 0x80, 0x02] } = .err e := by
  right; exact ⟨.arrayOutOfBounds 1 2 0, by decide +kernel⟩
example : fromBytes { data := [0x60, 0x01, 0x00, 0x05, 0x80, 0x02] } = .ok ⟨0, 4⟩ := by decide +kernel

end Fleece.Props
