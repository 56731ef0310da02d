import Verif.Model.Value

/-!
# `src/shared_keys.rs`

`SharedKeys` wraps `folklore::HashMap<zstr<16>, u16>`. The two external types are modelled by their documented
behaviour (part of the trusted base, see DESIGN.md):

* `zstr<16>` holds at most 15 bytes: `zstr::make` cuts longer strings, and the content ends at the first NUL.
* `folklore::HashMap` keeps its entries in insertion order; `get_key(i)` is the key of the `i`-th entry,
  iteration is in that order, `insert` of an absent key into a map below its capacity succeeds and returns
  `true`, and `get` returns the value stored for an equal key.
-/

namespace Fleece

/-- `char::is_alphanumeric` outside ASCII: a table of the standard library, a parameter of the model. -/
structure CharTable where
  alnum : Nat → Bool

/-- `c.is_alphanumeric() || c == '_' || c == '-'`, shared_keys.rs:68, on a code point. -/
def CharTable.keyChar (U : CharTable) (c : Nat) : Bool :=
  (48 ≤ c && c ≤ 57) || (65 ≤ c && c ≤ 90) || (97 ≤ c && c ≤ 122) || c == 95 || c == 45
    || (128 ≤ c && U.alnum c)

/-- `zstr::<16>::make(s)` followed by `as_str` (fixedstr). -/
def zstr (s : List UInt8) : List UInt8 := (s.take 15).takeWhile (· != 0)

/-- `SharedKeys`, shared_keys.rs:8: the entries of the hash map in insertion order. -/
structure SharedKeys where
  entries : List (List UInt8 × Nat)
deriving DecidableEq

namespace SharedKeys

/-- `MAX_KEYS`, shared_keys.rs:11. -/
def maxKeys : Nat := 2048
/-- `MAX_KEY_LEN`, shared_keys.rs:12. -/
def maxKeyLen : Nat := 16

/-- `SharedKeys::new`, shared_keys.rs:16-18, 113-118. -/
def new : SharedKeys := ⟨[]⟩

/-- `SharedKeys::len`, shared_keys.rs:22-24 (`as u16`). -/
def len (sk : SharedKeys) : Nat := sk.entries.length % 2 ^ 16

/-- `HashMap::get` (folklore). -/
def lookup (sk : SharedKeys) (k : List UInt8) : Option Nat :=
  (sk.entries.find? (fun e => e.1 == k)).map (·.2)

/-- `SharedKeys::encode`, shared_keys.rs:32-34. -/
def encode (sk : SharedKeys) (key : List UInt8) : Option Nat := sk.lookup (zstr key)

/-- `SharedKeys::can_encode`, shared_keys.rs:66-69. -/
def canEncode (U : CharTable) (key : List UInt8) : Bool :=
  match utf8Decode? key with
  | some cs => cs.all U.keyChar
  | none => false

/-- `SharedKeys::can_add`, shared_keys.rs:59-63. -/
def canAdd (U : CharTable) (sk : SharedKeys) (key : List UInt8) : Bool :=
  decide (sk.len < maxKeys) && decide (key.length ≤ maxKeyLen) && canEncode U key

/-- `SharedKeys::encode_and_insert`, shared_keys.rs:38-51. `insert` of the absent key below capacity returns
`true`. -/
def encodeAndInsert (U : CharTable) (sk : SharedKeys) (key : List UInt8) : SharedKeys × Option Nat :=
  if !sk.canAdd U key then (sk, none)
  else
    let k := zstr key
    match sk.lookup k with
    | some existing => (sk, some existing)
    | none =>
      let index := sk.len
      (⟨sk.entries ++ [(k, index)]⟩, some index)

/-- `SharedKeys::decode`, shared_keys.rs:54-56. -/
def decode (sk : SharedKeys) (code : Nat) : Option (List UInt8) := (sk.entries[code]?).map (·.1)

/-- The loop of `SharedKeys::from_state_value`, shared_keys.rs:82-86. The debug assertion panics when an
element is not a string. -/
def loadLoop (m : Mem) (U : CharTable) : Nat → Iter → SharedKeys → R (Option SharedKeys)
  | 0, _, _ => .diverge
  | fuel + 1, it, sk => do
    let (x, it') ← it.step m
    match x with
    | none => pure (some sk)
    | some val =>
      let t ← val.type m
      if m.dbg && decide (t ≠ .string) then .panic
      else
        let key ← val.toStr m
        match sk.encodeAndInsert U key with
        | (sk', some _) => loadLoop m U fuel it' sk'
        | (_, none) => pure none

/-- `SharedKeys::from_state_value`, shared_keys.rs:79-88. -/
def fromStateValue (m : Mem) (U : CharTable) (v : Val) : R (Option SharedKeys) := do
  match ← v.asArray m with
  | none => pure none
  | some state =>
    let it ← state.iter m
    loadLoop m U (it.len + 1) it new

/-- `SharedKeys::from_state_bytes`, shared_keys.rs:73-76. -/
def fromStateBytes (m : Mem) (U : CharTable) : R (Option SharedKeys) :=
  match fromBytes m with
  | .ok v => fromStateValue m U v
  | .err _ => .ok none
  | .panic => .panic
  | .ub => .ub
  | .diverge => .diverge

end SharedKeys
end Fleece
