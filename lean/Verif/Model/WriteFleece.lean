import Verif.Model.Mutable

/-!
# `Encoder::write_fleece`, encoder/mod.rs:134-179

The source is read while it is written, so the outcomes are those of readers (`R`). The scope of the source is what
`Scope::find_shared_keys` gives for its address (one buffer, one scope).
-/

namespace Fleece
namespace Enc

/-- The result of a call that reads a document. -/
abbrev OutR := R (Enc × Except EncodeError Unit)

/-- The `?` after a call of the encoder (encoder/mod.rs:158, 160, 168, 170, 171). -/
def andThen (x : OutR) (f : Enc → OutR) : OutR := do
  match ← x with
  | (e, .ok ()) => f e
  | (e, .error x) => .ok (e, .error x)

/-- The loop over an array, encoder/mod.rs:159-161; `w` is `write_fleece`. The iterator has at most `it.len` elements. -/
def writeItems (m : Mem) (w : Val → Enc → OutR) : Nat → Iter → Enc → OutR
  | 0, _, _ => .diverge
  | fuel + 1, it, e => do
    let (x, it') ← it.step m
    match x with
    | none => .ok (e, .ok ())
    | some x => andThen (w x e) fun e => writeItems m w fuel it' e

/-- `write_key` with the key that the iterator gives. It is a `&str`: it comes out of `to_str`, or of a shared key; a shared
key that was cut inside a character (`zstr`, see `SharedKeys`) is a panic of that library. -/
def writeKeyStr (c : Cfg) (e : Enc) (k : List UInt8) : OutR :=
  if h : validUtf8 k = true then (e.writeKey c ⟨k, h⟩).lift else .panic

/-- The loop over a dict, encoder/mod.rs:169-172. -/
def writeEntries (c : Cfg) (m : Mem) (scope : Option SharedKeys) (w : Val → Enc → OutR) : Nat → Iter → Enc → OutR
  | 0, _, _ => .diverge
  | fuel + 1, it, e => do
    let (x, it') ← it.dictStep m scope
    match x with
    | none => .ok (e, .ok ())
    | some (k, x) => andThen (writeKeyStr c e k) fun e => andThen (w x e) fun e => writeEntries c m scope w fuel it' e

/-- `Encoder::write_fleece`, encoder/mod.rs:134-179. `as_array` and `as_dict` succeed for these types, and `array.len()` is
`arrayLen`. `value_type` is evaluated once. `fuel` bounds the nesting depth. -/
def writeFleece (c : Cfg) (m : Mem) (F : FloatOps) (scope : Option SharedKeys) : Nat → Val → Enc → OutR
  | 0, _, _ => .diverge
  | fuel + 1, v, e => do
    let t ← v.type m
    if e.stack.isEmpty ∧ t ≠ .dict ∧ t ≠ .array then .ok (e, .error .collectionNotOpen)
    else match t with
      | .true => (e.push (.newNarrow 0x38 0)).lift
      | .false => (e.push (.newNarrow 0x34 0)).lift
      | .null => (e.push (.newNarrow 0x30 0)).lift
      | .undefined => (e.push (.newNarrow 0x3C 0)).lift
      | .short => do
        let i ← v.toShort m F
        (e.writeValue c (.i16 (Int16.ofInt i))).lift
      | .unsignedInt => do
        let n ← v.toUnsignedInt m F
        (e.writeValue c (.u64 (UInt64.ofNat n))).lift
      | .int => do
        let i ← v.toInt m F
        (e.writeValue c (.i64 (Int64.ofInt i))).lift
      | .float => do
        let b ← v.toFloat m F
        (e.writeValue c (.f32 b)).lift
      | .double32 | .double64 => do
        let b ← v.toDouble m F
        (e.writeValue c (.f64 b)).lift
      | .string => do
        let s ← v.toStr m
        if h : validUtf8 s = Bool.true then (e.writeValue c (.str ⟨s, h⟩)).lift else .panic   -- always valid
      | .data => do
        let d ← v.toData m
        (e.writeValue c (.data d)).lift
      | .array => do
        let n ← v.arrayLen m
        andThen (e.beginArray n).lift fun e => do
          let it ← v.iter m
          andThen (writeItems m (writeFleece c m F scope fuel) (it.len + 1) it e) fun e => (e.endArray c).lift
      | .dict =>
        andThen (e.beginDict).lift fun e => do
          let it ← v.dictIter m
          andThen (writeEntries c m scope (writeFleece c m F scope fuel) (it.len + 1) it e) fun e => (e.endDict c).lift
      | .pointer => do
        let tgt ← derefUnchecked m Bool.false v
        writeFleece c m F scope fuel tgt e

end Enc
end Fleece
