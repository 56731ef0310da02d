import Verif.Model.Dict

/-!
# What `Dict::get` costs

The lookup of Model/Dict.lean, returning also how many times `Value::dict_key_cmp` was called and how many pointers were
followed (calls of `Pointer::deref_unchecked`). Nothing else is different (`C64_counts`).
-/

namespace Fleece

/-- Calls of `dict_key_cmp`, and of `deref_unchecked`. -/
structure Tally where
  cmps : Nat
  hops : Nat

/-- `Pointer::deref_unchecked`, pointer.rs:63-76: the target, and the number of calls. -/
def derefCountGo (m : Mem) : Nat → Bool → Val → R (Val × Nat)
  | 0, _, _ => .diverge
  | fuel + 1, wide, v => do
    let offset ← v.getOffset m wide
    if m.dbg && decide (offset = 0) then .panic
    else if v.pos < offset then .ub
    else
      let target ← mkSlice m (v.pos - offset) offset
      let t ← target.type m
      if t = .pointer then do
        let (x, n) ← derefCountGo m fuel true target
        pure (x, n + 1)
      else pure (target, 1)

/-- `Pointer::deref_unchecked` with the fuel that suffices. -/
def derefCount (m : Mem) (wide : Bool) (v : Val) : R (Val × Nat) := derefCountGo m (v.pos + 1) wide v

/-- `Array::get_unchecked`, array.rs:73-87. -/
def Val.getCount (m : Mem) (v : Val) (index : Nat) : R (Val × Nat) := do
  let width ← v.width m
  let offset ← usizeMul m.dbg index width
  let first ← v.firstPos m
  let o ← usizeAdd m.dbg first offset
  let target ← mkSlice m (v.pos + o) width
  let t ← target.type m
  if t = .pointer then do
    let w ← v.isWide m
    derefCount m w target
  else pure (target, 0)

/-- `Dict::_get_unchecked`, dict.rs:180-185. -/
def Val.pairCount (m : Mem) (v : Val) (index : Nat) : R ((Val × Val) × Nat) := do
  let offset ← usizeMul m.dbg 2 index
  let (k, a) ← v.getCount m offset
  let (x, b) ← v.getCount m (offset + 1)
  pure ((k, x), a + b)

/-- `Value::dict_key_cmp`, value/mod.rs:434-460: the order, and the pointers followed. -/
def dictKeyCmpCount (m : Mem) (key : Key) (v : Val) (isWide : Bool) : R (Ordering × Nat) := do
  let t ← v.type m
  if m.dbg && decide (t ≠ .string ∧ t ≠ .pointer ∧ t ≠ .short) then .panic
  else
    match key, t with
    | .string k, .string => do
      let s ← v.toStr m
      pure (cmpBytes k s, 0)
    | .string k, .pointer => do
      let (tgt, n) ← derefCount m isWide v
      let s ← tgt.toStr m
      if m.dbg && decide (s = []) then .panic else pure (cmpBytes k s, n)
    | .shared c, .short => do
      let n ← v.getShort m
      pure (cmpNat c n, 0)
    | .shared _, _ => pure (.lt, 0)
    | _, .short => pure (.gt, 0)
    | _, _ => .panic

/-- The loop of `Dict::_get`, dict.rs:118-145. -/
def Val.searchCountLoop (m : Mem) (v : Val) (key : Key) : Nat → Nat → Nat → R (Option Val × Tally)
  | 0, left, right => if left < right then .diverge else .ok (none, ⟨0, 0⟩)
  | fuel + 1, left, right =>
    if left < right then do
      let mid := left + (right - left) / 2
      let ((k, x), a) ← v.pairCount m mid
      let w ← v.isWide m
      let (o, b) ← dictKeyCmpCount m key k w
      match o with
      | .gt => do
        let (r, c) ← searchCountLoop m v key fuel (mid + 1) right
        pure (r, ⟨c.cmps + 1, c.hops + a + b⟩)
      | .lt => do
        let (r, c) ← searchCountLoop m v key fuel left mid
        pure (r, ⟨c.cmps + 1, c.hops + a + b⟩)
      | .eq => pure (some x, ⟨1, a + b⟩)
    else .ok (none, ⟨0, 0⟩)

/-- `Dict::_get`, dict.rs:111-146. -/
def Val.searchCount (m : Mem) (v : Val) (key : Key) : R (Option Val × Tally) := do
  let n ← v.dictLen m
  v.searchCountLoop m key n 0 n

/-- `Dict::uses_shared_keys`, dict.rs:209-217. -/
def Val.usesCount (m : Mem) (v : Val) : R (Bool × Nat) := do
  let n ← v.arrayLen m
  if n = 0 then pure (false, 0)
  else
    let ((k, _), a) ← v.pairCount m 0
    let t ← k.type m
    pure (decide (t = .short), a)

/-- `Dict::encode_key`, dict.rs:191-202. -/
def Val.encodeKeyCount (m : Mem) (v : Val) (key : List UInt8) (given scope : Option SharedKeys) : R (Key × Nat) := do
  match given with
  | some sk =>
    match sk.encode key with
    | some c => pure (.shared c, 0)
    | none => pure (.string key, 0)
  | none =>
    let (uses, a) ← v.usesCount m
    if uses then
      match scope.bind (·.encode key) with
      | some c => pure (.shared c, a)
      | none => pure (.string key, a)
    else pure (.string key, a)

/-- `Dict::get`, dict.rs:89-96, and with `given` `Dict::get_with_shared_keys`, dict.rs:100-107. -/
def Val.lookupCount (m : Mem) (v : Val) (key : List UInt8) (given scope : Option SharedKeys) : R (Option Val × Tally) := do
  let (k, a) ← v.encodeKeyCount m key given scope
  let (r, c) ← v.searchCount m k
  pure (r, ⟨c.cmps, c.hops + a⟩)

end Fleece
