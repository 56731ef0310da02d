import Verif.Model.Scope
import Verif.Model.Mutable
import Verif.Model.Macro

/-!
# Reading through the registry: the accessors of `src/scope.rs`, and the readers that ask it

Elsewhere in the model the shared keys a reader finds are a parameter (`scope`). Here they are looked up, for each dict at its
own address, in the registry. The registry does not change during a call.
-/

namespace Fleece

/-! ## `Scope` -/

/-- `Scope::shared_keys`, scope.rs:25-29. -/
def ScopeRec.sharedKeys (s : ScopeRec) : Option SharedKeys := s.sk

/-- `Scope::data`, scope.rs:33-39. `strong_data` is `Some` in every scope. -/
def ScopeRec.data (s : ScopeRec) : Option Mem := some s.buf

/-- `Scope::root`, scope.rs:43-50. -/
def ScopeRec.rootValue (s : ScopeRec) : Option Alloced := s.data.bind fun m => s.root.map fun v => ⟨m, v⟩

/-- `Scope::range`, scope.rs:54-59: start and end. -/
def ScopeRec.range (s : ScopeRec) : Option (Nat × Nat) := s.data.map fun m => (m.base, m.base + m.data.length)

/-- `<Scope as PartialEq>::eq`, scope.rs:113-123: addresses of the buffers. The `Weak`s can be upgraded, because the scopes that
are compared hold `strong_data`. -/
def ScopeRec.eq (s t : ScopeRec) : Bool := decide (s.buf.base = t.buf.base)

/-! ## `Dict` -/

/-- `Dict::find_shared_keys`, dict.rs:204-207. -/
def Registry.keysAt (r : Registry) (m : Mem) (v : Val) : R (Option SharedKeys) := (r.findSharedKeys (m.base + v.pos)).lift

/-- `Dict::encode_key` without given keys, dict.rs:191-202. The registry is asked only if the first key is a shared one. -/
def Registry.encodeKey (r : Registry) (m : Mem) (v : Val) (key : List UInt8) : R Key := do
  let uses ← v.usesSharedKeys m
  if uses then do
    let sk ← r.keysAt m v
    match sk.bind (·.encode key) with
    | some c => pure (.shared c)
    | none => pure (.string key)
  else pure (.string key)

/-- `Dict::get`, dict.rs:89-96. -/
def Registry.dictGet (r : Registry) (m : Mem) (v : Val) (key : List UInt8) : R (Option Val) := do
  let k ← r.encodeKey m v key
  v.search m k

/-- `Dict::contains_key`, dict.rs:72-77. -/
def Registry.containsKey (r : Registry) (m : Mem) (v : Val) (key : List UInt8) : R Bool := do
  let x ← r.dictGet m v key
  pure x.isSome

/-- `<Dict as Index<&str>>::index`, dict.rs:225-231: `expect`. -/
def Registry.dictIndex (r : Registry) (m : Mem) (v : Val) (key : List UInt8) : R Val := do
  match ← r.dictGet m v key with
  | some x => pure x
  | none => .panic

/-- Iterating over a dict (`into_iter`, dict.rs:285-301, and `next` until it is `None`), applying `f` to every value. -/
def Registry.entries {α : Type} (r : Registry) (m : Mem) (f : Val → R α) (v : Val) : R (List (List UInt8 × α)) := do
  let sk ← r.keysAt m v
  let it ← v.dictIter m
  collectDict m sk f (it.len + 1) it

/-- The complete traversal (`readTree`), with every dict asking the registry. -/
def Registry.readTree (r : Registry) (m : Mem) (F : FloatOps) : Nat → Val → R Tree
  | 0, _ => .diverge
  | fuel + 1, v => do
    match ← v.type m with
    | .null => pure .null
    | .undefined => pure .undefined
    | .false => pure (.bool Bool.false)
    | .true => pure (.bool Bool.true)
    | .short | .int => do let i ← v.toInt m F; pure (.int i)
    | .unsignedInt => do let n ← v.toUnsignedInt m F; pure (.int n)
    | .float | .double32 | .double64 => do let d ← v.toDouble m F; pure (.float d)
    | .string => do let s ← v.toStr m; pure (.str s)
    | .data => do let d ← v.toData m; pure (.data d)
    | .array => do
      let it ← v.iter m
      let xs ← collect m (r.readTree m F fuel) (it.len + 1) it
      pure (.arr xs)
    | .dict => do
      let kvs ← r.entries m (r.readTree m F fuel) v
      pure (.dict kvs)
    | .pointer => .panic

/-! ## Mutable copies -/

/-- `MutableDict::copy_with_shared_keys`, mutable/dict.rs:57-69: the keys found are those of the registry, the keys written with
are those given. `f` copies a value. -/
def Registry.copyDict (r : Registry) (m : Mem) (f : Val → Bool → R Slot) (v : Val) (sk : Option SharedKeys) : R Slot := do
  let w ← v.isWide m
  let kvs ← r.entries m (fun x => f x w) v
  pure (.dict sk (kvs.foldl (fun map kv => mapInsert (mutEncodeKey sk kv.1) kv.2 map) []))

/-- `ValueSlot::new_from_fleece`, mutable.rs:40-66, with `MutableArray::clone_from` (array.rs:26-34) and
`MutableDict::clone_from` (dict.rs:31-34), as `Slot.newFromFleece`. -/
def Registry.newFromFleece (r : Registry) (m : Mem) (F : FloatOps) : Nat → Val → Bool → R Slot
  | 0, _, _ => .diverge
  | fuel + 1, v, isWide => do
    match ← v.type m with
    | .array => do
      let w ← v.isWide m
      let it ← v.iter m
      let xs ← collect m (fun x => r.newFromFleece m F fuel x w) (it.len + 1) it
      pure (.arr xs)
    | .dict => do
      let sk ← r.keysAt m v
      r.copyDict m (r.newFromFleece m F fuel) v sk
    | .pointer => do
      let tgt ← derefUnchecked m isWide v
      r.newFromFleece m F fuel tgt Bool.false
    -- scalars: no registry involved
    | _ => Slot.newFromFleece m F none 1 v isWide

/-- `MutableDict::from_scope`, mutable/dict.rs:46-55. -/
def Registry.dictFromScope (r : Registry) (s : ScopeRec) (F : FloatOps) (fuel : Nat) : R (Option Slot) := do
  match s.rootValue with
  | none => pure none
  | some a =>
    match ← a.toDict with
    | none => pure none
    | some a => do
      let d ← r.copyDict a.mem (r.newFromFleece a.mem F fuel) a.value s.sharedKeys
      pure (some d)

/-- `MutableArray::from_scope`, mutable/array.rs:36-45. -/
def Registry.arrayFromScope (r : Registry) (s : ScopeRec) (F : FloatOps) (fuel : Nat) : R (Option Slot) := do
  match s.rootValue with
  | none => pure none
  | some a =>
    match ← a.toArray with
    | none => pure none
    | some a => do
      let w ← a.value.isWide a.mem
      let it ← a.value.iter a.mem
      let xs ← collect a.mem (fun x => r.newFromFleece a.mem F fuel x w) (it.len + 1) it
      pure (some (.arr xs))

end Fleece
