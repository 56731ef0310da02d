import Verif.Spec.Scope

/-!
# `src/scope.rs` on several threads

Model/Scope.lean takes every call as one step. Here the calls of scope.rs are split where another thread can come in between: at
taking and releasing the lock of `SCOPE_MAP`, at every access of the map, and at every change of the number of `Arc<Scope>`s, which
needs no lock. Modelled by documented behaviour (trusted base), besides what Model/Scope.lean lists:

* `ShardedLock`: `write` returns when no other thread has the lock, `read` when no other thread has it for writing. It is given
  back when the guard goes out of scope, also when the thread panics.
* `Arc`: the scope lives while its strong count is not 0; `Weak::upgrade` adds one to a count that is not 0, and fails otherwise,
  in one step; so do `clone` and `drop`.

`Scope::new` panics on no data inside `insert`, after `Arc::new`; the scope is then dropped before anybody has seen it, and is left
out. So are the temporary `Arc`s in `<ScopeEntry as PartialEq>::eq`, which `insert` may make while it has the lock.
-/

namespace Fleece.Threads
open Fleece

/-- What a call has returned. -/
inductive Ret where
  | unit
  | scope (id : Nat)
  | found (r : Option Nat)
  | keys (k : Option SharedKeys)
  | panic
deriving DecidableEq

/-- Where a thread is: what it does next. -/
inductive Pc where
  /-- not in a call; the last one has returned this -/
  | ret (r : Ret)
  /-- `Scope::new`, before scope.rs:78 -/
  | newWait (m : Mem) (sk : Option SharedKeys)
  /-- before scope.rs:85, with the lock -/
  | newRoot (m : Mem) (sk : Option SharedKeys)
  /-- before scope.rs:87 -/
  | newMake (m : Mem) (sk : Option SharedKeys) (root : Option Val)
  /-- before scope.rs:94 -/
  | newInsert (id : Nat)
  /-- before scope.rs:95, where the lock is released -/
  | newOut (id : Nat)
  /-- `Scope::remove`, before scope.rs:67 -/
  | removeWait (id : Nat)
  /-- before scope.rs:69, with the lock -/
  | removeMap (id : Nat)
  /-- before the end of the call, scope.rs:71 -/
  | removeOut (id : Nat)
  /-- `Scope::containing`, before scope.rs:108; called by the user, or by `find_shared_keys` -/
  | findWait (a : Nat) (user : Bool)
  /-- before scope.rs:109, with the lock for reading -/
  | findGet (a : Nat) (user : Bool)
  /-- before scope.rs:110 -/
  | findUpgrade (a : Nat) (user : Bool) (entry : Option Nat)
  /-- before the end of `containing`, scope.rs:111 -/
  | findOut (a : Nat) (user : Bool) (r : Option Nat)
  /-- `find_shared_keys`, before `s.shared_keys.clone()`, scope.rs:22 -/
  | keysClone (id : Nat)
  /-- before `s` is dropped, scope.rs:22 -/
  | keysDrop (id : Nat) (k : Option SharedKeys)

/-- The thread has the lock for writing. -/
def Pc.writes : Pc → Bool
  | .newRoot _ _ | .newMake _ _ _ | .newInsert _ | .newOut _ | .removeMap _ | .removeOut _ => true
  | _ => false

/-- The thread has the lock for reading. -/
def Pc.reads : Pc → Bool
  | .findGet _ _ | .findUpgrade _ _ _ | .findOut _ _ _ => true
  | _ => false

/-- A `Scope` (scope.rs:10-15) in memory, with the strong count of its `Arc`. -/
structure Cell where
  sk : Option SharedKeys
  buf : Mem
  root : Option Val
  strong : Nat

/-- The process. `held` is how many `Arc`s of a scope the users have, i.e. those not in the hands of a call. -/
structure World where
  pcs : List Pc
  cells : List Cell := []
  map : Nat → Option Nat := fun _ => none
  poisoned : Bool := false
  held : Nat → Nat := fun _ => 0

namespace World

/-- `n` threads, nothing else. -/
def init (n : Nat) : World := { pcs := List.replicate n (.ret .unit) }

/-- `write` can return: nobody has the lock. -/
def writeFree (w : World) : Prop := ∀ p ∈ w.pcs, p.writes = false ∧ p.reads = false

/-- `read` can return: nobody has it for writing. -/
def readFree (w : World) : Prop := ∀ p ∈ w.pcs, p.writes = false

/-- The strong count. -/
def strong (w : World) (id : Nat) : Nat := ((w.cells[id]?).map (·.strong)).getD 0

/-- The thread goes on. -/
def goto (w : World) (t : Nat) (p : Pc) : World := { w with pcs := w.pcs.set t p }

/-- Add to the strong count. -/
def incr (w : World) (id : Nat) : World := { w with cells := w.cells.modify id fun s => { s with strong := s.strong + 1 } }

/-- Take from the strong count. -/
def decr (w : World) (id : Nat) : World := { w with cells := w.cells.modify id fun s => { s with strong := s.strong - 1 } }

/-- The users get an `Arc`. -/
def give (w : World) (id : Nat) : World := { w with held := fun i => if i = id then w.held i + 1 else w.held i }

/-- The users let an `Arc` go. -/
def take (w : World) (id : Nat) : World := { w with held := fun i => if i = id then w.held i - 1 else w.held i }

/-- What is seen of taking one from the count: the last one ends the scope. -/
def dropEvent (w : World) (id : Nat) : Option ScopeOp := if w.strong id = 1 then some (.drop id) else none

end World

open World

/-- One step of the process, by any thread. The event is the change to the set of scopes, if there is one: a scope is entered in
the map, or taken out, or its last `Arc` is dropped. -/
inductive Step : World → Option ScopeOp → World → Prop where
  /-- nothing happens -/
  | rest {w} : Step w none w
  /-- a user clones an `Arc<Scope>` -/
  | clone {w id} (h : 0 < w.held id) : Step w none ((w.incr id).give id)
  /-- a user drops an `Arc<Scope>` -/
  | drop {w id} (h : 0 < w.held id) : Step w (w.dropEvent id) ((w.decr id).take id)
  /-- `Scope::new` is called; `from_bytes` returns or panics on the data -/
  | callNew {w t r m sk} (h : w.pcs[t]? = some (.ret r))
      (data : (∃ x, Registry.rootOrNone m = .ok x) ∨ Registry.rootOrNone m = .panic) : Step w none (w.goto t (.newWait m sk))
  /-- `scope.remove()` is called, on an `Arc` of the users, which the call borrows -/
  | callRemove {w t r id} (h : w.pcs[t]? = some (.ret r)) (own : 0 < w.held id) :
      Step w none ((w.goto t (.removeWait id)).take id)
  /-- `Scope::containing` (`user`) or `Scope::find_shared_keys` is called -/
  | callFind {w t r a user} (h : w.pcs[t]? = some (.ret r)) : Step w none (w.goto t (.findWait a user))
  -- `Scope::new`, scope.rs:77-97
  | newLock {w t m sk} (h : w.pcs[t]? = some (.newWait m sk)) (free : w.writeFree) (sane : w.poisoned = false) :
      Step w none (w.goto t (.newRoot m sk))
  | newFail {w t m sk} (h : w.pcs[t]? = some (.newWait m sk)) (free : w.writeFree) (bad : w.poisoned = true) :
      Step w none (w.goto t (.ret .panic))
  | newRoot {w t m sk root} (h : w.pcs[t]? = some (.newRoot m sk)) (ok : Registry.rootOrNone m = .ok root) :
      Step w none (w.goto t (.newMake m sk root))
  | newRootPanic {w t m sk} (h : w.pcs[t]? = some (.newRoot m sk)) (bad : Registry.rootOrNone m = .panic) :
      Step w none { w.goto t (.ret .panic) with poisoned := true }
  | newMake {w t m sk root} (h : w.pcs[t]? = some (.newMake m sk root)) (ne : m.data ≠ []) :
      Step w none { w.goto t (.newInsert w.cells.length) with cells := w.cells ++ [⟨sk, m, root, 1⟩] }
  | newMakeEmpty {w t m sk root} (h : w.pcs[t]? = some (.newMake m sk root)) (empty : m.data = []) :
      Step w none { w.goto t (.ret .panic) with poisoned := true }
  | newInsert {w t id s} (h : w.pcs[t]? = some (.newInsert id)) (cell : w.cells[id]? = some s) :
      Step w (some (.new s.buf s.sk)) { w.goto t (.newOut id) with map := fun a => if s.buf.holds a then some id else w.map a }
  | newOut {w t id} (h : w.pcs[t]? = some (.newOut id)) : Step w none ((w.goto t (.ret (.scope id))).give id)
  -- `Scope::remove`, scope.rs:66-71
  | removeLock {w t id} (h : w.pcs[t]? = some (.removeWait id)) (free : w.writeFree) (sane : w.poisoned = false) :
      Step w none (w.goto t (.removeMap id))
  | removeFail {w t id} (h : w.pcs[t]? = some (.removeWait id)) (free : w.writeFree) (bad : w.poisoned = true) :
      Step w none ((w.goto t (.ret .panic)).give id)
  | removeMap {w t id s} (h : w.pcs[t]? = some (.removeMap id)) (cell : w.cells[id]? = some s) :
      Step w (some (.remove id)) { w.goto t (.removeOut id) with map := fun a => if s.buf.holds a then none else w.map a }
  | removeOut {w t id} (h : w.pcs[t]? = some (.removeOut id)) : Step w none ((w.goto t (.ret .unit)).give id)
  -- `Scope::containing`, scope.rs:107-111
  | findLock {w t a user} (h : w.pcs[t]? = some (.findWait a user)) (free : w.readFree) (sane : w.poisoned = false) :
      Step w none (w.goto t (.findGet a user))
  | findFail {w t a user} (h : w.pcs[t]? = some (.findWait a user)) (free : w.readFree) (bad : w.poisoned = true) :
      Step w none (w.goto t (.ret .panic))
  | findGet {w t a user} (h : w.pcs[t]? = some (.findGet a user)) : Step w none (w.goto t (.findUpgrade a user (w.map a)))
  | findNone {w t a user} (h : w.pcs[t]? = some (.findUpgrade a user none)) : Step w none (w.goto t (.findOut a user none))
  | findDead {w t a user id} (h : w.pcs[t]? = some (.findUpgrade a user (some id))) (dead : w.strong id = 0) :
      Step w none (w.goto t (.findOut a user none))
  | findSome {w t a user id} (h : w.pcs[t]? = some (.findUpgrade a user (some id))) (live : 0 < w.strong id) :
      Step w none ((w.incr id).goto t (.findOut a user (some id)))
  | findOut {w t a id} (h : w.pcs[t]? = some (.findOut a true (some id))) :
      Step w none ((w.goto t (.ret (.found (some id)))).give id)
  | findOutNone {w t a} (h : w.pcs[t]? = some (.findOut a true none)) : Step w none (w.goto t (.ret (.found none)))
  -- `Scope::find_shared_keys`, scope.rs:21-23
  | keysNone {w t a} (h : w.pcs[t]? = some (.findOut a false none)) : Step w none (w.goto t (.ret (.keys none)))
  | keysSome {w t a id} (h : w.pcs[t]? = some (.findOut a false (some id))) : Step w none (w.goto t (.keysClone id))
  | keysClone {w t id s} (h : w.pcs[t]? = some (.keysClone id)) (cell : w.cells[id]? = some s) :
      Step w none (w.goto t (.keysDrop id s.sk))
  | keysDrop {w t id k} (h : w.pcs[t]? = some (.keysDrop id k)) :
      Step w (w.dropEvent id) ((w.decr id).goto t (.ret (.keys k)))

/-- A run of the process: its states, and what happens between each and the next. -/
structure History (n : Nat) where
  state : Nat → World
  event : Nat → Option ScopeOp
  start : state 0 = World.init n
  step : ∀ i, Step (state i) (event i) (state (i + 1))

namespace History
variable {n : Nat} (h : History n)

/-- The book of the scopes (Spec/Scope.lean) at an instant. -/
def book : Nat → List Owner
  | 0 => []
  | i + 1 => match h.event i with
    | none => book i
    | some op => bookStep (book i) op

/-- The allocator gives a new scope a buffer that overlaps none of a live scope. (Two scopes over one `Arc<[u8]>` do not meet
this: C35_shared_buffer.) -/
def Apart : Prop := ∀ i m sk, h.event i = some (.new m sk) → ∀ o ∈ h.book i, o.live = true →
  m.base + m.data.length ≤ o.start ∨ o.start + o.len ≤ m.base

end History

end Fleece.Threads
