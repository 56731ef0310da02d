import Verif.Model.Value

/-! # Specification: what an iterator goes on to yield -/

namespace Fleece

section
variable {σ α : Type} (next : σ → R (Option α × σ))

/-- `Taken next s i s'`: `i` calls of `next` have each returned an item, and turned the iterator `s` into `s'`. -/
inductive Taken (s : σ) : Nat → σ → Prop where
  | zero : Taken s 0 s
  | succ {i : Nat} {s1 s2 : σ} {x : α} : Taken s i s1 → next s1 = .ok (some x, s2) → Taken s (i + 1) s2

/-- `Yields next s xs`: a loop over the iterator `s` gets the items `xs`, and then `None`. -/
inductive Yields : σ → List α → Prop where
  | done {s s' : σ} : next s = .ok (none, s') → Yields s []
  | more {s s' : σ} {x : α} {xs : List α} : next s = .ok (some x, s') → Yields s' xs → Yields s (x :: xs)
end

/-- A loop gets one list of items. -/
theorem Yields.unique {σ α : Type} {next : σ → R (Option α × σ)} {s : σ} {xs ys : List α} (h : Yields next s xs)
    (h' : Yields next s ys) : xs = ys := by
  induction h generalizing ys with
  | done h =>
    cases h' with
    | done _ => rfl
    | more h' _ => rw [h] at h'; cases h'
  | more h _ ih =>
    cases h' with
    | done h' => rw [h] at h'; cases h'
    | more h' g => rw [h] at h'; cases h'; rw [ih g]

/-- What is left after `i` items. -/
theorem Yields.drop {σ α : Type} {next : σ → R (Option α × σ)} {s s' : σ} {xs : List α} {i : Nat} (h : Yields next s xs)
    (ht : Taken next s i s') : i ≤ xs.length ∧ Yields next s' (xs.drop i) := by
  induction ht with
  | zero => exact ⟨by omega, h⟩
  | @succ i s1 s2 x _ hn ih =>
    obtain ⟨h1, h2⟩ := ih
    generalize hy : xs.drop i = ys at h2
    cases h2 with
    | done h => rw [h] at hn; cases hn
    | more h g =>
      rw [h] at hn; cases hn
      have hl := congrArg List.length hy
      simp only [List.length_drop, List.length_cons] at hl
      refine ⟨by omega, ?_⟩
      rw [← List.drop_drop, hy]
      exact g

end Fleece
