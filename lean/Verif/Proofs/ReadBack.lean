import Verif.Proofs.ScalarWrite
import Verif.Spec.Bytes

/-! # From `readTree` to the single accessors -/

namespace Fleece
open Res

theorem Holds.of_placed {bs : List UInt8} {m : Mem} {v : Val} (h : Spec.Placed bs m v) : Holds m v bs := by
  obtain ⟨pre, post, hd, hp, h1, h2⟩ := h
  refine ⟨?_, h1, ?_⟩
  · unfold Val.In; rw [hd, hp]; simp; omega
  · rw [hd, hp, List.append_assoc, List.drop_left', List.take_left']
    · rfl
    · rfl

section
variable {F : FloatOps} {bs : List UInt8} {ty : ValueType}

theorem ScalarBytes.toStr {s : List UInt8} (h : ScalarBytes F bs ty (.str s)) {m : Mem} {v : Val} (hv : Holds m v bs) :
    v.toStr m = .ok s ∧ v.type m = .ok .string := by
  have ht := h.type m v hv
  have hr := h.read m v none 0 hv
  simp only [readTree, ht, ok_bind] at hr
  cases ty <;> simp only [bind_eq_ok, pure_eq, ok.injEq, reduceCtorEq, Tree.str.injEq, and_false, exists_false] at hr
  all_goals obtain ⟨x, hx, hr⟩ := hr
  all_goals first
    | (cases hr; exact ⟨hx, ht⟩)
    | (obtain ⟨_, _, hr⟩ := hr; cases hr)

theorem ScalarBytes.toData {s : List UInt8} (h : ScalarBytes F bs ty (.data s)) {m : Mem} {v : Val}
    (hv : Holds m v bs) : v.toData m = .ok s ∧ v.type m = .ok .data := by
  have ht := h.type m v hv
  have hr := h.read m v none 0 hv
  simp only [readTree, ht, ok_bind] at hr
  cases ty <;> simp only [bind_eq_ok, pure_eq, ok.injEq, reduceCtorEq, Tree.data.injEq, and_false, exists_false] at hr
  all_goals obtain ⟨x, hx, hr⟩ := hr
  all_goals first
    | (cases hr; exact ⟨hx, ht⟩)
    | (obtain ⟨_, _, hr⟩ := hr; cases hr)

/-- An integer below `2^63` is read by both integer accessors. -/
theorem ScalarBytes.toUnsigned {n : Nat} (h : ScalarBytes F bs ty (.int n)) {m : Mem} {v : Val}
    (hv : Holds m v bs) (hn : n < 2 ^ 64) : v.toUnsignedInt m F = .ok n := by
  have ht := h.type m v hv
  have hr := h.read m v none 0 hv
  simp only [readTree, ht, ok_bind] at hr
  cases ty <;> simp only [bind_eq_ok, pure_eq, ok.injEq, reduceCtorEq, Tree.int.injEq, and_false, exists_false] at hr
  all_goals obtain ⟨x, hx, hr⟩ := hr
  all_goals first
    | (unfold Val.toUnsignedInt; rw [hx, ok_bind, hr]; simp only [pure_eq]; congr 1; omega)
    | (rw [hx]; congr 1; omega)
    | (obtain ⟨_, _, hr⟩ := hr; cases hr)

theorem ScalarBytes.toInt {n : Int} (h : ScalarBytes F bs ty (.int n)) {m : Mem} {v : Val}
    (hv : Holds m v bs) (hty : ty ≠ .unsignedInt) : v.toInt m F = .ok n := by
  have ht := h.type m v hv
  have hr := h.read m v none 0 hv
  simp only [readTree, ht, ok_bind] at hr
  cases ty <;> simp only [bind_eq_ok, pure_eq, ok.injEq, reduceCtorEq, Tree.int.injEq, and_false, exists_false] at hr
  all_goals obtain ⟨x, hx, hr⟩ := hr
  all_goals first
    | exact absurd rfl hty
    | (rw [hx, hr])
    | (obtain ⟨_, _, hr⟩ := hr; cases hr)

theorem ScalarBytes.toDouble {d : UInt64} (h : ScalarBytes F bs ty (.float d)) {m : Mem} {v : Val}
    (hv : Holds m v bs) : v.toDouble m F = .ok d := by
  have ht := h.type m v hv
  have hr := h.read m v none 0 hv
  simp only [readTree, ht, ok_bind] at hr
  cases ty <;> simp only [bind_eq_ok, pure_eq, ok.injEq, reduceCtorEq, Tree.float.injEq, and_false, exists_false] at hr
  all_goals obtain ⟨x, hx, hr⟩ := hr
  all_goals first
    | (rw [hx, hr])
    | (obtain ⟨_, _, hr⟩ := hr; cases hr)

end

end Fleece
