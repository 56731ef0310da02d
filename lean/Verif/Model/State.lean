import Verif.Model.Encoder

/-! # `src/shared_keys.rs`: saving a table -/

namespace Fleece
namespace SharedKeys

/-- The loop of `SharedKeys::write_state`, shared_keys.rs:102-104, then `end_array`, 105. `key.as_str()` (fixedstr) of a
name that is not UTF-8, which a 16-byte key cut inside a character leaves, is not known to us; it is a panic here. -/
def saveLoop (c : Cfg) : List (List UInt8 × Nat) → Enc → Exec (Enc × Option Unit)
  | [], e => do
    match ← e.endArray c with
    | (e, .ok ()) => pure (e, some ())
    | (e, .error _) => pure (e, none)
  | (k, _) :: rest, e =>
    if h : validUtf8 k = true then do
      match ← e.writeValue c (.str ⟨k, h⟩) with
      | (e, .ok ()) => saveLoop c rest e
      | (e, .error _) => pure (e, none)
    else .panic

/-- `SharedKeys::write_state`, shared_keys.rs:98-106. -/
def writeState (c : Cfg) (sk : SharedKeys) (e : Enc) : Exec (Enc × Option Unit) := do
  match ← e.beginArray sk.entries.length with
  | (e, .error _) => pure (e, none)
  | (e, .ok ()) => saveLoop c sk.entries e

/-- `SharedKeys::get_state_bytes`, shared_keys.rs:90-96. -/
def getStateBytes (c : Cfg) (sk : SharedKeys) : Exec (List UInt8) := do
  let (e, _) ← sk.writeState c Enc.new
  e.finish c

end SharedKeys
end Fleece
