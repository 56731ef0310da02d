import Verif.Model.Encoder

/-!
# `src/scope.rs`: the global registry of scopes

The registry is `ShardedLock<RangeMap<usize, ScopeEntry>>`. Modelled by documented behaviour (trusted base):

* `RangeMap` is a map from addresses: `insert(a..b, x)` maps `a..b` to `x`, whatever was there, and panics if `a ≥ b`;
  `remove(a..b)` unmaps `a..b`. It may merge adjacent ranges with equal entries; entries are equal only if both scopes are
  alive and have the same buffer, so that the ranges are the same range.
* A panic while the lock is held for writing poisons it: every later `read` or `write` returns `Err`, and the code
  unwraps it.

Calls are atomic, so histories are sequences (Model/Threads.lean splits them into steps, and C63 shows that nothing is lost). An `Arc<Scope>` is identified by its number; all
clones of it count as one, `alive` until the last is dropped. There is no `impl Drop for Scope`.
-/

namespace Fleece

/-- `Scope`, scope.rs:10-15; `buf` is the memory of `strong_data`, which is `Some` in every scope. -/
structure ScopeRec where
  sk : Option SharedKeys
  buf : Mem
  root : Option Val
  /-- some `Arc<Scope>` exists, i.e. `Weak::upgrade` succeeds -/
  alive : Bool

/-- The process: all scopes ever created, `SCOPE_MAP` (scope.rs:157-160), and whether its lock is poisoned. -/
structure Registry where
  scopes : List ScopeRec := []
  map : Nat → Option Nat := fun _ => none
  poisoned : Bool := false

/-- Is the address in the buffer? `Scope::range`, scope.rs:54-59. -/
def Mem.holds (m : Mem) (a : Nat) : Bool := decide (m.base ≤ a) && decide (a < m.base + m.data.length)

namespace Registry

/-- A call: the state after it (also after a panic) and its outcome. -/
abbrev Out (α : Type) := Registry × Exec α

/-- `Scope::root_or_none`, scope.rs:99-101: `from_bytes(..).ok()`. -/
def rootOrNone (m : Mem) : Exec (Option Val) :=
  match fromBytes m with
  | .ok v => .ok (some v)
  | .err _ => .ok none
  | .panic => .panic
  | .ub => .ub
  | .diverge => .diverge

/-- `Scope::new`, scope.rs:77-97. `m` is the buffer, where the allocator (or the caller's `Arc`) has put it. -/
def new (r : Registry) (m : Mem) (sk : Option SharedKeys) : Out Nat :=
  if r.poisoned then (r, .panic)   -- `write().unwrap()`
  else
    match rootOrNone m with
    | .ok root =>
      if m.data.length = 0 then ({ r with poisoned := true }, .panic)   -- `insert` of an empty range
      else
        let id := r.scopes.length
        ({ r with
            scopes := r.scopes ++ [⟨sk, m, root, true⟩]
            map := fun a => if m.holds a then some id else r.map a }, .ok id)
    | .panic => ({ r with poisoned := true }, .panic)
    | .err x => nomatch x
    | .ub => (r, .ub)
    | .diverge => (r, .diverge)

/-- `Scope::remove`, scope.rs:66-71. -/
def remove (r : Registry) (s : ScopeRec) : Out Unit :=
  if r.poisoned then (r, .panic)   -- `write().unwrap()`
  else ({ r with map := fun a => if s.buf.holds a then none else r.map a }, .ok ())

/-- The last `Arc<Scope>` is dropped. -/
def drop (r : Registry) (id : Nat) : Registry :=
  { r with scopes := r.scopes.mapIdx fun i s => if i = id then { s with alive := false } else s }

/-- `Scope::containing`, scope.rs:107-111. -/
def containing (r : Registry) (a : Nat) : Exec (Option Nat) :=
  if r.poisoned then .panic   -- `read().unwrap()`
  else
    match r.map a with
    | none => .ok none
    | some id =>
      match r.scopes[id]? with
      | some s => .ok (if s.alive then some id else none)
      | none => .ok none

/-- `Scope::find_shared_keys`, scope.rs:18-23. -/
def findSharedKeys (r : Registry) (a : Nat) : Exec (Option SharedKeys) := do
  match ← r.containing a with
  | none => pure none
  | some id => pure ((r.scopes[id]?).bind (·.sk))

/-- `Encoder::finish_scoped`, encoder/mod.rs:288-292; `base` is where the allocator puts the bytes. -/
def finishScoped (r : Registry) (c : Cfg) (e : Enc) (base : Nat) : Out Nat :=
  match Enc.endGo c e.stack.length e with
  | .ok e => r.new ⟨e.out, base, c.dbg⟩ e.sk
  | .err x => nomatch x
  | .panic => (r, .panic)
  | .ub => (r, .ub)
  | .diverge => (r, .diverge)

end Registry

/-- The calls that change the registry. -/
inductive ScopeOp where
  | new (m : Mem) (sk : Option SharedKeys)
  | remove (id : Nat)
  | drop (id : Nat)

/-- One call; `remove` and `drop` of a scope that was never created do nothing (there is no such call in Rust). -/
def Registry.step (r : Registry) : ScopeOp → Registry.Out Unit
  | .new m sk =>
    match r.new m sk with
    | (r, .ok _) => (r, .ok ())
    | (_, .err x) => nomatch x
    | (r, .panic) => (r, .panic)
    | (r, .ub) => (r, .ub)
    | (r, .diverge) => (r, .diverge)
  | .remove id =>
    match r.scopes[id]? with
    | some s => r.remove s
    | none => (r, .ok ())
  | .drop id => (r.drop id, .ok ())

/-- A history. Panics are caught (or happen on another thread), so the history goes on. -/
def Registry.run (r : Registry) : List ScopeOp → Registry × List (Exec Unit)
  | [] => (r, [])
  | op :: ops =>
    let (r, x) := r.step op
    let (r, xs) := r.run ops
    (r, x :: xs)

end Fleece
