import Verif.Spec.Copy
import Verif.Proofs.ScalarWrite
import Verif.Proofs.Collect

/-!
# Copying scalars

What the accessors return, as numbers of their Rust types.
-/

namespace Fleece
open Res

theorem shortInt_range {m : Mem} {v : Val} {i : Int} (h : v.shortInt m = .ok i) : ShortRange i := by
  unfold Val.shortInt at h
  obtain ⟨n, hn, h⟩ := bind_eq_ok.mp h
  unfold Val.getShort at hn
  obtain ⟨bs, _, hn⟩ := bind_eq_ok.mp hn
  split at hn
  · next b0 b1 _ =>
    simp only [pure_eq, ok.injEq] at hn
    subst hn
    have h0 : (b0 &&& 0x0F).toNat < 16 := (forall_byte (by decide +kernel) : ∀ b : UInt8, (b &&& 0x0F).toNat < 16) b0
    have ht := short12_table ⟨(b0 &&& 0x0F).toNat, h0⟩ ⟨b1.toNat, byte_lt b1⟩
    simp only at ht
    have hr : ShortRange (short12 ((b0 &&& 0x0F).toNat * 256 + b1.toNat)) := by
      have := byte_lt b1
      unfold short12 ShortRange; split <;> omega
    split at h <;> simp only [pure_eq, ok.injEq] at h <;> subst h
    · next hc => rw [if_pos hc] at ht; rw [ht]; exact hr
    · next hc => rw [if_neg hc] at ht; rw [ht]; exact hr
  · cases hn

/-- The result of `to_int` is an `i64`, for the integer types. -/
theorem toInt_range {m : Mem} {F : FloatOps} {v : Val} {i : Int} {ty : ValueType} (ht : v.type m = .ok ty)
    (hty : ty = .short ∨ ty = .int ∨ ty = .unsignedInt) (h : v.toInt m F = .ok i) : -2 ^ 63 ≤ i ∧ i < 2 ^ 63 := by
  unfold Val.toInt at h
  rw [ht] at h
  simp only [ok_bind] at h
  rcases hty with rfl | rfl | rfl <;> dsimp only at h
  · have := shortInt_range h; unfold ShortRange at this; omega
  all_goals
    obtain ⟨b, _, h⟩ := bind_eq_ok.mp h
    obtain ⟨bs, _, h⟩ := bind_eq_ok.mp h
    simp only [pure_eq, ok.injEq] at h
    subst h
    have h1 := Int.le_bmod (x := leNat bs) (m := 2 ^ 64) (by omega)
    have h2 := Int.bmod_lt (x := leNat bs) (m := 2 ^ 64) (by omega)
    omega

theorem rawRead_length_le {m : Mem} {pos n : Nat} {bs : List UInt8} (h : rawRead m pos n = .ok bs) : bs.length ≤ m.data.length := by
  unfold rawRead at h
  split at h
  · cases h; simp; omega
  · cases h

theorem slice_length {m : Mem} {v : Val} {a b : Nat} {bs : List UInt8} (h : v.slice m a b = .ok bs) :
    bs.length ≤ m.data.length := by
  unfold Val.slice at h
  split at h
  · exact rawRead_length_le h
  · cases h

theorem getData_length {m : Mem} {v : Val} {d : List UInt8} (h : v.getData m = .ok d) : d.length ≤ m.data.length := by
  unfold Val.getData at h
  split at h
  · cases h; simp
  obtain ⟨b0, _, h⟩ := bind_eq_ok.mp h
  change (if (b0 &&& 15).toNat = 15 then _ else _) = _ at h
  split at h
  · obtain ⟨rest, _, h⟩ := bind_eq_ok.mp h
    obtain ⟨⟨n, sz⟩, _, h⟩ := bind_eq_ok.mp h
    dsimp only at h
    split at h
    · cases h; simp
    · obtain ⟨e, _, h⟩ := bind_eq_ok.mp h
      exact slice_length h
  · exact slice_length h

theorem toData_length {m : Mem} {v : Val} {d : List UInt8} (h : v.toData m = .ok d) : d.length ≤ m.data.length := by
  unfold Val.toData at h
  obtain ⟨ty, _, h⟩ := bind_eq_ok.mp h
  cases ty <;> dsimp only at h <;> first | exact getData_length h | (cases h; simp)

theorem toStr_valid {m : Mem} {v : Val} {d : List UInt8} (h : v.toStr m = .ok d) :
    validUtf8 d = true ∧ d.length ≤ m.data.length := by
  have hnil : validUtf8 [] = true := rfl
  unfold Val.toStr at h
  obtain ⟨ty, _, h⟩ := bind_eq_ok.mp h
  cases ty <;> dsimp only at h
  case string =>
    obtain ⟨s, hs, h⟩ := bind_eq_ok.mp h
    split at h <;> cases h
    · next hv => exact ⟨hv, getData_length hs⟩
    · exact ⟨hnil, by simp⟩
  all_goals (cases h; exact ⟨hnil, by simp⟩)

/-! ## Copies -/

theorem Copies.leaf {m : Mem} {F : FloatOps} {scope : Option SharedKeys} {K : List UInt8 → Prop} {d : Nat} {v : Val} {ty : ValueType}
    (h : v.type m = .ok ty) (hty : ty ≠ .int ∧ ty ≠ .unsignedInt ∧ ty ≠ .float ∧ ty ≠ .array ∧ ty ≠ .dict) :
    Copies m F scope K d v := by
  cases d with
  | zero => trivial
  | succ d =>
    unfold Copies
    simp only [h, ok.injEq]
    exact ⟨fun e => absurd e hty.1, fun e => absurd e hty.2.1, fun e => absurd e hty.2.2.1, fun e => absurd e hty.2.2.2.1,
      fun e => absurd e hty.2.2.2.2⟩

theorem Copies.array {m : Mem} {F : FloatOps} {scope : Option SharedKeys} {K : List UInt8 → Prop} {d : Nat} {v : Val} {it : Iter} (xs : List Val)
    (h : v.type m = .ok .array) (hi : v.iter m = .ok it) (hx : collect m .ok (it.len + 1) it = .ok xs)
    (hc : ∀ x ∈ xs, Copies m F scope K d x) : Copies m F scope K (d + 1) v := by
  unfold Copies
  simp only [h, ok.injEq, reduceCtorEq, false_implies, true_and, forall_const, and_true]
  intro it' xs' h1 h2
  rw [hi] at h1; cases h1
  rw [hx] at h2; cases h2
  exact hc

theorem Copies.dict {m : Mem} {F : FloatOps} {scope : Option SharedKeys} {K : List UInt8 → Prop} {d : Nat} {v : Val} {it : Iter}
    (kvs : List (List UInt8 × Val)) (h : v.type m = .ok .dict) (hi : v.dictIter m = .ok it)
    (hx : collectDict m scope .ok (it.len + 1) it = .ok kvs) (hc : ∀ e ∈ kvs, K e.1 ∧ Copies m F scope K d e.2) :
    Copies m F scope K (d + 1) v := by
  unfold Copies
  simp only [h, ok.injEq, reduceCtorEq, false_implies, true_and, forall_const]
  intro it' xs' h1 h2
  rw [hi] at h1; cases h1
  rw [hx] at h2; cases h2
  exact hc

end Fleece
