/-!
# Outcomes and fixed-width arithmetic

Shared vocabulary of the model. Nothing here models a particular function of the repository; it models the
ways in which a Rust call can end, and `usize` arithmetic on a 64-bit target in the two build profiles.
-/

namespace Fleece

/-- How a Rust call ends. `ok`: it returns (for a `Result`, `Ok`). `err`: it returns `Err`.
`panic`: it panics. `ub`: `unsafe` code read memory, or formed a slice, outside the buffer it was given.
`diverge`: the recursion was cut off by the fuel argument of the model. -/
inductive Res (ε α : Type) where
  | ok (a : α)
  | err (e : ε)
  | panic
  | ub
  | diverge
deriving DecidableEq, Repr

namespace Res
variable {ε α β : Type}

/-- Sequencing: every outcome other than `ok` ends the computation. -/
@[inline] def bind : Res ε α → (α → Res ε β) → Res ε β
  | ok a, f => f a
  | err e, _ => err e
  | panic, _ => panic
  | ub, _ => ub
  | diverge, _ => diverge

instance : Monad (Res ε) where
  pure := ok
  bind := bind

@[simp] theorem pure_eq (a : α) : (pure a : Res ε α) = ok a := rfl
@[simp] theorem ok_bind (a : α) (f : α → Res ε β) : (ok a >>= f) = f a := rfl
@[simp] theorem err_bind (e : ε) (f : α → Res ε β) : ((err e : Res ε α) >>= f) = err e := rfl
@[simp] theorem panic_bind (f : α → Res ε β) : ((panic : Res ε α) >>= f) = panic := rfl
@[simp] theorem ub_bind (f : α → Res ε β) : ((ub : Res ε α) >>= f) = ub := rfl
@[simp] theorem diverge_bind (f : α → Res ε β) : ((diverge : Res ε α) >>= f) = diverge := rfl
@[simp] theorem map_eq (f : α → β) (x : Res ε α) : f <$> x = (x >>= fun a => ok (f a)) := rfl

theorem bind_eq_ok {x : Res ε α} {f : α → Res ε β} {b : β} :
    (x >>= f) = ok b ↔ ∃ a, x = ok a ∧ f a = ok b := by
  cases x <;> simp

@[simp] theorem bind_assoc {γ : Type} (x : Res ε α) (f : α → Res ε β) (g : β → Res ε γ) :
    (x >>= f) >>= g = x >>= fun a => f a >>= g := by
  cases x <;> rfl

end Res

/-- Outcome of code that has no `Err` of its own (the encoder's methods return their `Result` as data). -/
abbrev Exec (α : Type) := Res Empty α

/-- `usize` multiplication, 64-bit target: overflow panics with overflow checks, wraps without. -/
def usizeMul {ε : Type} (dbg : Bool) (a b : Nat) : Res ε Nat :=
  if a * b < 2 ^ 64 then .ok (a * b)
  else if dbg then .panic else .ok (a * b % 2 ^ 64)

/-- `usize` addition, 64-bit target. -/
def usizeAdd {ε : Type} (dbg : Bool) (a b : Nat) : Res ε Nat :=
  if a + b < 2 ^ 64 then .ok (a + b)
  else if dbg then .panic else .ok ((a + b) % 2 ^ 64)

/-- `usize` subtraction, 64-bit target. -/
def usizeSub {ε : Type} (dbg : Bool) (a b : Nat) : Res ε Nat :=
  if b ≤ a then .ok (a - b)
  else if dbg then .panic else .ok ((a + 2 ^ 64 - b) % 2 ^ 64)

/-- `u32` subtraction. -/
def u32Sub {ε : Type} (dbg : Bool) (a b : Nat) : Res ε Nat :=
  if b ≤ a then .ok (a - b)
  else if dbg then .panic else .ok ((a + 2 ^ 32 - b) % 2 ^ 32)

/-- `u32` addition. -/
def u32Add {ε : Type} (dbg : Bool) (a b : Nat) : Res ε Nat :=
  if a + b < 2 ^ 32 then .ok (a + b)
  else if dbg then .panic else .ok ((a + b) % 2 ^ 32)

end Fleece
