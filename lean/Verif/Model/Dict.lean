import Verif.Model.SharedKeys

/-! # `src/value/dict.rs` and `Value::dict_key_cmp` -/

namespace Fleece

/-- `dict::Key`, dict.rs:20-23. -/
inductive Key where
  | shared (code : Nat)
  | string (s : List UInt8)
deriving DecidableEq, Repr

/-- `u16::cmp`. -/
def cmpNat (a b : Nat) : Ordering := if a < b then .lt else if b < a then .gt else .eq

/-- `Value::dict_key_cmp`, value/mod.rs:434-460. -/
def dictKeyCmp (m : Mem) (key : Key) (v : Val) (isWide : Bool) : R Ordering := do
  let t ← v.type m
  if m.dbg && decide (t ≠ .string ∧ t ≠ .pointer ∧ t ≠ .short) then .panic
  else
    match key, t with
    | .string k, .string => do
      let s ← v.toStr m
      pure (cmpBytes k s)
    | .string k, .pointer => do
      let tgt ← derefUnchecked m isWide v
      let s ← tgt.toStr m
      if m.dbg && decide (s = []) then .panic else pure (cmpBytes k s)
    | .shared c, .short => do
      -- `to_unsigned_short` of a `Short`
      let n ← v.getShort m
      pure (cmpNat c n)
    | .shared _, _ => pure .lt
    | _, .short => pure .gt
    | _, _ => .panic   -- `unreachable!()`

/-- `Dict::len`, dict.rs:169-171. -/
def Val.dictLen (m : Mem) (v : Val) : R Nat := do
  let n ← v.arrayLen m
  pure (n / 2)

/-- `Dict::_get_unchecked`, dict.rs:180-185. -/
def Val.pairUnchecked (m : Mem) (v : Val) (index : Nat) : R (Val × Val) := do
  let offset ← usizeMul m.dbg 2 index
  let k ← v.getUnchecked m offset
  let x ← v.getUnchecked m (offset + 1)
  pure (k, x)

/-- The loop of `Dict::_get`, dict.rs:118-145; at every iteration `size = right - left`, so the three
variables of the Rust loop are `left` and `right`. The number of iterations is at most `right - left`. -/
def Val.searchLoop (m : Mem) (v : Val) (key : Key) : Nat → Nat → Nat → R (Option Val)
  | 0, left, right => if left < right then .diverge else .ok none
  | fuel + 1, left, right =>
    if left < right then do
      let mid := left + (right - left) / 2
      let (k, x) ← v.pairUnchecked m mid
      let w ← v.isWide m
      match ← dictKeyCmp m key k w with
      | .gt => searchLoop m v key fuel (mid + 1) right
      | .lt => searchLoop m v key fuel left mid
      | .eq => pure (some x)
    else .ok none

/-- `Dict::_get`, dict.rs:111-146. -/
def Val.search (m : Mem) (v : Val) (key : Key) : R (Option Val) := do
  let n ← v.dictLen m
  v.searchLoop m key n 0 n

/-- `Dict::uses_shared_keys`, dict.rs:209-217. -/
def Val.usesSharedKeys (m : Mem) (v : Val) : R Bool := do
  let n ← v.arrayLen m
  if n = 0 then pure false
  else
    let (k, _) ← v.pairUnchecked m 0
    let t ← k.type m
    pure (decide (t = .short))

/-- `Dict::encode_key`, dict.rs:191-202. `given` is the `shared_keys` argument; `scope` is the result of
`Dict::find_shared_keys` (dict.rs:205-207), the `SharedKeys` of the scope registered for the dict's address. -/
def Val.encodeKey (m : Mem) (v : Val) (key : List UInt8) (given scope : Option SharedKeys) : R Key := do
  match given with
  | some sk =>
    match sk.encode key with
    | some c => pure (.shared c)
    | none => pure (.string key)
  | none =>
    let uses ← v.usesSharedKeys m
    if uses then
      match scope.bind (·.encode key) with
      | some c => pure (.shared c)
      | none => pure (.string key)
    else pure (.string key)

/-- `Dict::get`, dict.rs:89-96. -/
def Val.dictGet (m : Mem) (scope : Option SharedKeys) (v : Val) (key : List UInt8) : R (Option Val) := do
  let k ← v.encodeKey m key none scope
  v.search m k

/-- `Dict::get_with_shared_keys`, dict.rs:100-107. -/
def Val.dictGetWith (m : Mem) (sk : SharedKeys) (v : Val) (key : List UInt8) : R (Option Val) := do
  let k ← v.encodeKey m key (some sk) none
  v.search m k

/-- `Dict::contains_key`, dict.rs:72-77. -/
def Val.containsKey (m : Mem) (scope : Option SharedKeys) (v : Val) (key : List UInt8) : R Bool := do
  let r ← v.dictGet m scope key
  pure r.isSome

/-- `Dict::first`, dict.rs:150-155. -/
def Val.dictFirst (m : Mem) (v : Val) : R (Option (Val × Val)) := do
  let n ← v.arrayLen m
  if n = 0 then pure none
  else
    let p ← v.pairUnchecked m 0
    pure (some p)

/-- `Dict::into_iter`, dict.rs:285-301: the array iterator; the kind of iterator is fixed by `scope`. -/
def Val.dictIter (m : Mem) (v : Val) : R Iter := v.iter m

/-- `next` of `SharedKeyIter` (`scope = some`, dict.rs:247-258) and of `Iter` (`scope = none`, dict.rs:269-277). -/
def Iter.dictStep (m : Mem) (scope : Option SharedKeys) (it : Iter) :
    R (Option (List UInt8 × Val) × Iter) := do
  let (k, it1) ← it.step m
  match k with
  | none => pure (none, it1)
  | some k =>
    let t ← k.type m
    let key : Option (List UInt8) ←
      if t = .short then
        match scope with
        | some sk => do
          let n ← k.getShort m
          pure (sk.decode n)
        | none => pure none
      else do
        let s ← k.toStr m
        pure (some s)
    match key with
    | none => pure (none, it1)
    | some key =>
      let (x, it2) ← it1.step m
      match x with
      | none => pure (none, it2)
      | some x => pure (some (key, x), it2)

end Fleece
