import Verif.Model.DebugAlt

/-! # `src/shared_keys.rs`: iterating over a table, and its `Debug` -/

namespace Fleece
namespace SharedKeys

/-- What is left to hand out, `Iter`, shared_keys.rs:136. The map hands its entries out in the order in which they were inserted. -/
abbrev Rest := List (List UInt8 × Nat)

/-- `SharedKeys::iter`, shared_keys.rs:108-110, and `into_iter`, 131-133. -/
def iter (sk : SharedKeys) : Rest := sk.entries

/-- `Iter::next`, shared_keys.rs:141-143. `key.as_str()` of a name that is not UTF-8 is not known to us; it is a panic here, as in
`saveLoop`. -/
def Rest.next : Rest → R (Option (List UInt8 × Nat) × Rest)
  | [] => .ok (none, [])
  | (key, value) :: rest => if validUtf8 key = true then .ok (some (key, value), rest) else .panic

/-- A `for` loop over an `Iter` that collects the pairs. The first argument bounds the number of steps. -/
def Rest.listed : Nat → Rest → R (List (List UInt8 × Nat))
  | 0, _ => .diverge
  | n + 1, it => do
    let (x, it') ← Rest.next it
    match x with
    | none => pure []
    | some x => do
      let xs ← Rest.listed n it'
      pure (x :: xs)

/-- What `entries(self)` in `<SharedKeys as Debug>::fmt` goes through, shared_keys.rs:149. -/
def pairs (sk : SharedKeys) : R (List (List UInt8 × Nat)) := Rest.listed (sk.entries.length + 1) sk.iter

/-- The name in front, shared_keys.rs:148. -/
def heading : Text := ['S', 'h', 'a', 'r', 'e', 'd', 'K', 'e', 'y', 's', ' ']

/-- `<SharedKeys as Debug>::fmt`, shared_keys.rs:147-150, for `{:?}`. -/
def debug (P : Printer) (sk : SharedKeys) : R Text := do
  let kvs ← sk.pairs
  pure (heading ++ mapText (kvs.map fun kv => (P.strText kv.1, natText kv.2)))

/-- The same for `{:#?}`. -/
def debugAlt (P : Printer) (sk : SharedKeys) : R Text := do
  let kvs ← sk.pairs
  pure (heading ++ mapAlt (kvs.map fun kv => (P.strText kv.1, natText kv.2)))

end SharedKeys
end Fleece
