import Verif.Model.Basic

/-! # Reasoning about outcomes -/

namespace Fleece.Res
variable {ε α β : Type}

/-- Neither out-of-bounds access nor running out of recursion fuel. -/
def Safe : Res ε α → Prop
  | ub => False
  | diverge => False
  | _ => True

@[simp] theorem safe_ok (a : α) : (ok a : Res ε α).Safe := trivial
@[simp] theorem safe_err (e : ε) : (err e : Res ε α).Safe := trivial
@[simp] theorem safe_panic : (panic : Res ε α).Safe := trivial
@[simp] theorem not_safe_ub : ¬ (ub : Res ε α).Safe := id
@[simp] theorem not_safe_diverge : ¬ (diverge : Res ε α).Safe := id

theorem safe_iff (x : Res ε α) : x.Safe ↔ x ≠ ub ∧ x ≠ diverge := by
  cases x <;> simp

theorem Safe.bind {x : Res ε α} {f : α → Res ε β} (hx : x.Safe) (hf : ∀ a, x = ok a → (f a).Safe) :
    (x >>= f).Safe := by
  cases x <;> simp_all

theorem Safe.ite {c : Prop} [Decidable c] {x y : Res ε α} (hx : c → x.Safe) (hy : ¬ c → y.Safe) :
    (if c then x else y).Safe := by
  split <;> simp_all

/-- `x` is `y`, or is the special outcome `bot`. With `bot = diverge`: more fuel may only replace
non-termination. With `bot = panic`: the other build profile may only replace a panic. -/
def LeOr (bot : ∀ {γ : Type}, Res ε γ) (x y : Res ε α) : Prop := x = bot ∨ x = y

theorem LeOr.refl (bot : ∀ {γ : Type}, Res ε γ) (x : Res ε α) : LeOr bot x x := Or.inr rfl

theorem LeOr.bind_diverge {x y : Res ε α} {f g : α → Res ε β} (hx : LeOr (fun {_} => diverge) x y)
    (hf : ∀ a, x = ok a → LeOr (fun {_} => diverge) (f a) (g a)) :
    LeOr (fun {_} => diverge) (x >>= f) (y >>= g) := by
  rcases hx with rfl | rfl
  · left; rfl
  · cases x with
    | ok a => exact hf a rfl
    | _ => right; rfl

theorem LeOr.bind_panic {x y : Res ε α} {f g : α → Res ε β} (hx : LeOr (fun {_} => panic) x y)
    (hf : ∀ a, x = ok a → LeOr (fun {_} => panic) (f a) (g a)) :
    LeOr (fun {_} => panic) (x >>= f) (y >>= g) := by
  rcases hx with rfl | rfl
  · left; rfl
  · cases x with
    | ok a => exact hf a rfl
    | _ => right; rfl

end Fleece.Res
