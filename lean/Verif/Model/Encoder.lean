import Verif.Model.Encodable
import Verif.Model.Dict

/-!
# `src/encoder/mod.rs`, `src/encoder/value_stack.rs`: the encoder

Every public method returns its `Result` as data together with the new state; `Exec` adds the outcomes `panic` and
`diverge` (stack overflow). What a panic leaves behind is not modelled. Allocation never fails.
-/

namespace Fleece

/-- `EncodeError`, encoder/error.rs:6-14. -/
inductive EncodeError where
  | arrayNotOpen | dictNotOpen | dictWaitingForValue | dictWaitingForKey | collectionNotOpen | pointerTooLarge
  | multiTopLevelCollection
deriving DecidableEq, Repr

/-- `DictKey`, value_stack.rs:19-25. -/
inductive DictKey where
  | inline (s : SizedValue)
  | shared (code : Nat)
  | pointer (key : List UInt8) (offset : Nat)
deriving DecidableEq

/-- `DictElement`, value_stack.rs:27-30. -/
structure DictElem where
  key : DictKey
  val : SizedValue
deriving DecidableEq

/-- `Collection`, value_stack.rs:10-36, with `Array` and `Dict`. -/
inductive Collection where
  | arr (values : List SizedValue)
  | dict (values : List DictElem) (nextKey : Option DictKey)
deriving DecidableEq

/-- `Encoder::dict_key_cmp`, encoder/mod.rs:295-317. -/
def DictKey.cmp : DictKey → DictKey → Ordering
  | .inline a, .inline b => cmpBytes a.str b.str
  | .pointer a _, .pointer b _ => cmpBytes a b
  | .inline a, .pointer b _ => cmpBytes a.str b
  | .pointer a _, .inline b => cmpBytes a b.str
  | .shared a, .shared b => cmpNat a b
  | .shared _, _ => .lt
  | _, .shared _ => .gt

/-- `<[DictElement]>::sort_unstable_by(dict_key_cmp)` (core): some function that returns a sorted permutation. -/
structure Sorter where
  run : List DictElem → List DictElem
  perm : ∀ l, (run l).Perm l
  sorted : ∀ l, (run l).Pairwise (fun a b => DictKey.cmp a.key b.key ≠ .gt)

/-- What the encoder depends on besides its own code: the build profile, `char::is_alphanumeric`, the sort. -/
structure Cfg where
  dbg : Bool
  chars : CharTable
  sort : Sorter

/-- `Encoder`, encoder/mod.rs:46-51. The head of `stack` is the innermost open collection. -/
structure Enc where
  out : List UInt8 := []
  sk : Option SharedKeys := none
  stack : List Collection := []
  closed : Bool := false

/-- What `_write` is called with. -/
inductive Item where
  | scalar (x : Scalar)
  /-- the `&str` of a key -/
  | key (s : List UInt8)
  | sized (s : SizedValue)
  | arr (len : Nat)
  | dict (len : Nat)

/-- `Encodable::fleece_size` of it. -/
def Item.size : Item → Nat
  | scalar x => x.size
  | key s => dataSize s.length
  | sized s => s.size
  | arr n => headerSize n
  | dict n => headerSize n

/-- `Encodable::write_fleece_to` of it; the tags are `tag::STRING`, `tag::ARRAY`, `tag::DICT` (value/mod.rs:55-58). -/
def Item.writeTo (dbg : Bool) (x : Item) (buf : Nat) (wide : Bool) : Exec (Option (List UInt8)) :=
  match x with
  | scalar x => x.writeTo dbg buf wide
  | key s => writeData 0x40 s buf wide
  | sized s => .ok (s.writeTo buf wide)
  | arr n => .ok (writeHeader 0x60 n buf wide)
  | dict n => .ok (writeHeader 0x70 n buf wide)

namespace Enc

/-- The result of a method returning `Result<()>`. -/
abbrev Out := Exec (Enc × Except EncodeError Unit)

/-- `Ok(())`. -/
def done (e : Enc) : Out := .ok (e, .ok ())
/-- `Err(x)`. -/
def fail (e : Enc) (x : EncodeError) : Out := .ok (e, .error x)

/-- `Encoder::_write`, encoder/mod.rs:325-353: the state after it and the returned offset. -/
def write (c : Cfg) (e : Enc) (x : Item) (wide isColl : Bool) : Exec (Enc × Nat) := do
  let offset := e.out.length
  let required := if wide && !isColl then max x.size 4 else x.size
  match ← x.writeTo c.dbg required wide with
  | none => .panic   -- `assert_eq!`
  | some bs =>
    if bs.length = required then
      let out := e.out ++ bs
      pure ({ e with out := if out.length % 2 ≠ 0 then out ++ [0] else out }, offset % 2 ^ 32)
    else .panic   -- `assert_eq!`

/-- `Dict::push_key` on the innermost collection, value_stack.rs:110-116, with the two `Err`s of its callers. -/
def pushKey (e : Enc) (k : DictKey) : Out :=
  match e.stack with
  | .dict vs nk :: rest =>
    if nk.isSome then e.fail .dictWaitingForValue
    else ({ e with stack := .dict vs (some k) :: rest } : Enc).done
  | _ => e.fail .dictNotOpen

/-- `Encoder::_push`, encoder/mod.rs:393-405, with `Array::push` and `Dict::push_value` (value_stack.rs:97-99,
118-124). -/
def push (e : Enc) (s : SizedValue) : Out :=
  match e.stack with
  | [] => e.fail .collectionNotOpen
  | .arr vs :: rest => ({ e with stack := .arr (vs ++ [s]) :: rest } : Enc).done
  | .dict vs (some k) :: rest => ({ e with stack := .dict (vs ++ [⟨k, s⟩]) none :: rest } : Enc).done
  | .dict _ none :: _ => e.fail .dictWaitingForKey

/-- `Encoder::_write_key_pointer`, encoder/mod.rs:380-388. The key is written before anything is checked. -/
def writeKeyPointer (c : Cfg) (e : Enc) (key : List UInt8) : Out := do
  let (e, offset) ← e.write c (.key key) false false
  e.pushKey (.pointer key offset)

/-- `Encoder::_write_key`, encoder/mod.rs:364-378. -/
def writeKeyLong (c : Cfg) (e : Enc) (key : List UInt8) : Out :=
  match e.sk with
  | some sk =>
    match e.stack with
    | .dict _ _ :: _ =>
      match sk.encodeAndInsert c.chars key with
      | (sk', some code) => ({ e with sk := some sk' } : Enc).pushKey (.shared code)
      | (sk', none) => ({ e with sk := some sk' } : Enc).writeKeyPointer c key
    | _ => e.fail .dictNotOpen
  | none => e.writeKeyPointer c key

/-- `Encoder::write_key`, encoder/mod.rs:88-96, and `_write_key_inline`, 355-362. -/
def writeKey (c : Cfg) (e : Enc) (key : RStr) : Out :=
  match dataSized 0x40 key.bytes with
  | some s => e.pushKey (.inline s)
  | none => e.writeKeyLong c key.bytes

/-- `Encoder::write_value`, encoder/mod.rs:104-124. -/
def writeValue (c : Cfg) (e : Enc) (x : Scalar) : Out :=
  if e.stack.isEmpty then e.fail .collectionNotOpen
  else match x.toSized with
    | some s => e.push s
    | none => do
      let (e, offset) ← e.write c (.scalar x) false false
      match SizedValue.newPointer offset with
      | none => e.fail .pointerTooLarge
      | some p => e.push p

/-- Is the innermost collection a dict without a pending key? (value_stack.rs:57-62, 69-74) -/
def waitingForKey (e : Enc) : Bool :=
  match e.stack with
  | .dict _ none :: _ => true
  | _ => false

/-- `Encoder::begin_array`, encoder/mod.rs:188-193, `push_array`, value_stack.rs:56-66. `Vec::with_capacity` of 4-byte
elements panics above `isize::MAX` bytes. -/
def beginArray (e : Enc) (capacity : Nat) : Out :=
  if e.closed then e.fail .multiTopLevelCollection
  else if e.waitingForKey then e.fail .dictWaitingForKey
  else if capacity * 4 ≥ 2 ^ 63 then .panic
  else ({ e with stack := .arr [] :: e.stack } : Enc).done

/-- `Encoder::begin_dict`, encoder/mod.rs:221-226, `push_dict`, value_stack.rs:68-77. -/
def beginDict (e : Enc) : Out :=
  if e.closed then e.fail .collectionNotOpen
  else if e.waitingForKey then e.fail .dictWaitingForKey
  else ({ e with stack := .dict [] none :: e.stack } : Enc).done

/-- `Encoder::_array_should_be_wide`, encoder/mod.rs:425-434. -/
def arrayWide (dbg : Bool) (outLen : Nat) : List SizedValue → Exec Bool
  | [] => .ok false
  | v :: vs => do
    if v.type = .pointer then
      let o ← v.actualPointerOffset dbg outLen
      if o > SizedValue.maxNarrow then pure true else arrayWide dbg outLen vs
    else arrayWide dbg outLen vs

/-- The key part of `_dict_should_be_wide`, encoder/mod.rs:440-445: the `if let` and the test inside it. -/
def keyFar (dbg : Bool) (len : Nat) : DictKey → Exec Bool
  | .pointer _ off => do
    let offset ← usizeSub dbg len off
    let d ← usizeSub dbg len offset
    pure (decide (d > SizedValue.maxNarrow))
  | _ => .ok false

/-- `Encoder::_dict_should_be_wide`, encoder/mod.rs:437-454: `len` is the local variable, `outLen` `self.out.len()`. -/
def dictWide (dbg : Bool) (outLen : Nat) : (len : Nat) → List DictElem → Exec Bool
  | _, [] => .ok false
  | len, el :: els => do
    let keyWide ← keyFar dbg len el.key
    if keyWide then pure true
    else if el.val.type = .pointer then
      let o ← el.val.actualPointerOffset dbg outLen
      if o > SizedValue.maxNarrow then pure true else dictWide dbg outLen (len + 2) els
    else dictWide dbg outLen (len + 2) els

/-- `Encoder::_fix_pointer`, encoder/mod.rs:483-486. -/
def fixPointer (dbg : Bool) (p : SizedValue) (len : Nat) : Exec SizedValue := do
  let o ← p.actualPointerOffset dbg len
  match SizedValue.newPointer o with
  | some s => pure s
  | none => .panic   -- `expect`

/-- Fix a slot if it is a pointer (encoder/mod.rs:460-462, 475-477). -/
def fixSlot (dbg : Bool) (s : SizedValue) (len : Nat) : Exec SizedValue :=
  if s.type = .pointer then fixPointer dbg s len else .ok s

/-- Width of a slot. -/
def slotWidth (wide : Bool) : Nat := if wide then 4 else 2

/-- `Encoder::_fix_array_pointers`, encoder/mod.rs:456-465; `len` is the `u32` variable. -/
def fixArray (dbg wide : Bool) : (len : Nat) → List SizedValue → Exec (List SizedValue)
  | _, [] => .ok []
  | len, v :: vs => do
    let v' ← fixSlot dbg v len
    let len' ← u32Add dbg len (slotWidth wide)
    let vs' ← fixArray dbg wide len' vs
    pure (v' :: vs')

/-- The key part of `_fix_dict_pointers`, encoder/mod.rs:471-473. -/
def fixKey (dbg : Bool) (len : Nat) : DictKey → Exec DictKey
  | .pointer k off => do
    let o ← u32Sub dbg len off
    pure (.pointer k o)
  | k => .ok k

/-- `Encoder::_fix_dict_pointers`, encoder/mod.rs:467-480. -/
def fixDict (dbg wide : Bool) : (len : Nat) → List DictElem → Exec (List DictElem)
  | _, [] => .ok []
  | len, el :: els => do
    let key' ← fixKey dbg len el.key
    let len1 ← u32Add dbg len (slotWidth wide)
    let val' ← fixSlot dbg el.val len1
    let len2 ← u32Add dbg len1 (slotWidth wide)
    let els' ← fixDict dbg wide len2 els
    pure (⟨key', val'⟩ :: els')

/-- The loop `for v in &array.values { self._write(v, is_wide, false) }`, encoder/mod.rs:209-211. -/
def writeSlots (c : Cfg) (wide : Bool) : Enc → List SizedValue → Exec Enc
  | e, [] => .ok e
  | e, v :: vs => do
    let (e, _) ← e.write c (.sized v) wide false
    writeSlots c wide e vs

/-- The value written for a key, encoder/mod.rs:259-272; `none` is `PointerTooLarge`. -/
def keySlot : DictKey → Exec (Option SizedValue)
  | .inline s => .ok (some s)
  | .shared code =>
    match u16Sized code with
    | some s => .ok (some s)
    | none => .panic   -- `unreachable!()`
  | .pointer _ off => .ok (SizedValue.newPointer off)

/-- The element loop of `end_dict`, encoder/mod.rs:258-275. -/
def writePairs (c : Cfg) (wide : Bool) : Enc → List DictElem → Out
  | e, [] => e.done
  | e, el :: els => do
    match ← keySlot el.key with
    | none => e.fail .pointerTooLarge
    | some k => do
      let (e, _) ← e.write c (.sized k) wide false
      let (e, _) ← e.write c (.sized el.val) wide false
      writePairs c wide e els

/-- `Encoder::_finished_collection`, encoder/mod.rs:488-521, with `_actual_pointer_offset`, 421-423. In a dict
`push_value` without a pending key drops the value (value_stack.rs:118-124; its `None` is ignored). -/
def finishedCollection (c : Cfg) (e : Enc) (offset : Nat) : Out :=
  match e.stack with
  | coll :: rest =>
    match SizedValue.newPointer offset with
    | none => e.fail .pointerTooLarge
    | some p =>
      match coll with
      | .dict vs (some k) => ({ e with stack := .dict (vs ++ [⟨k, p⟩]) none :: rest } : Enc).done
      | .dict vs none => ({ e with stack := .dict vs none :: rest } : Enc).done
      | .arr vs => ({ e with stack := .arr (vs ++ [p]) :: rest } : Enc).done
  | [] => do
    let o ← u32Sub c.dbg (e.out.length % 2 ^ 32) offset
    if o ≤ SizedValue.maxNarrow then
      match SizedValue.newPointer o with
      | none => .panic   -- `unwrap`
      | some root => do
        let (e, _) ← e.write c (.sized root) false false
        ({ e with closed := true } : Enc).done
    else match SizedValue.newPointer o with
      | none => e.fail .pointerTooLarge
      | some inner => do
        let (e, _) ← e.write c (.sized inner) true false
        match SizedValue.newPointer 4 with
        | none => .panic   -- `unwrap`
        | some root => do
          let (e, _) ← e.write c (.sized root) false false
          ({ e with closed := true } : Enc).done

/-- `Encoder::end_array`, encoder/mod.rs:198-216, with `CollectionStack::pop`, value_stack.rs:79-87: a dict with a
pending key is not popped, any other collection is, before its type is looked at. -/
def endArray (c : Cfg) (e : Enc) : Out :=
  match e.stack with
  | [] => e.fail .arrayNotOpen
  | .dict _ (some _) :: _ => e.fail .arrayNotOpen
  | .dict _ none :: rest => ({ e with stack := rest } : Enc).fail .arrayNotOpen
  | .arr vs :: rest => do
    let e := { e with stack := rest }
    let wide ← arrayWide c.dbg e.out.length vs
    let (e, offset) ← e.write c (.arr vs.length) wide true
    let vs ← fixArray c.dbg wide (e.out.length % 2 ^ 32) vs
    let e ← writeSlots c wide e vs
    e.finishedCollection c offset

/-- `Encoder::end_dict`, encoder/mod.rs:233-281. -/
def endDict (c : Cfg) (e : Enc) : Out :=
  match e.stack with
  | .dict _ (some _) :: _ => e.fail .dictWaitingForValue
  | .dict els none :: rest => do
    let e := { e with stack := rest }
    let wide ← dictWide c.dbg e.out.length e.out.length els
    let (e, offset) ← e.write c (.dict els.length) wide true
    let els ← fixDict c.dbg wide (e.out.length % 2 ^ 32) (c.sort.run els)
    match ← writePairs c wide e els with
    | (e, .error x) => e.fail x
    | (e, .ok ()) => e.finishedCollection c offset
  | _ => e.fail .dictNotOpen

/-- `Encoder::_end`, encoder/mod.rs:408-418. Every iteration pops a collection, so the fuel is the height of the
stack. -/
def endGo (c : Cfg) : Nat → Enc → Exec Enc
  | 0, e => if e.stack.isEmpty then .ok e else .diverge
  | fuel + 1, e =>
    match e.stack with
    | [] => .ok e
    | .arr _ :: _ => do
      let (e, _) ← e.endArray c
      endGo c fuel e
    | .dict vs _ :: rest => do
      let (e, _) ← ({ e with stack := .dict vs none :: rest } : Enc).endDict c
      endGo c fuel e

/-- `Encoder::finish`, encoder/mod.rs:283-286. -/
def finish (c : Cfg) (e : Enc) : Exec (List UInt8) := do
  let e ← endGo c e.stack.length e
  pure e.out

/-- `Encoder::set_shared_keys`, encoder/mod.rs:181-183. -/
def setSharedKeys (e : Enc) (sk : SharedKeys) : Enc := { e with sk := some sk }

/-- `Encoder::new_to_vec`, encoder/mod.rs:74-81. -/
def newToVec (out : List UInt8) : Enc := { out }

/-- `Encoder::new`, encoder/mod.rs:55-57. -/
def new : Enc := {}

end Enc

/-- The calls of the encoder API that build a document (`write_fleece` is separate, `Model.WriteFleece`). -/
inductive Op where
  | beginArray (capacity : Nat)
  | beginDict
  | key (k : RStr)
  | value (x : Scalar)
  | endArray
  | endDict

/-- One call. -/
def Enc.step (c : Cfg) (e : Enc) : Op → Enc.Out
  | .beginArray n => e.beginArray n
  | .beginDict => e.beginDict
  | .key k => e.writeKey c k
  | .value x => e.writeValue c x
  | .endArray => e.endArray c
  | .endDict => e.endDict c

/-- A sequence of calls, with the `Result` of each. -/
def Enc.run (c : Cfg) (e : Enc) : List Op → Exec (Enc × List (Except EncodeError Unit))
  | [] => .ok (e, [])
  | op :: ops => do
    let (e, r) ← e.step c op
    let (e, rs) ← e.run c ops
    pure (e, r :: rs)

/-- What a program can do with an encoder between `new` and `finish`: the calls above, and `set_shared_keys`. The table is the
value passed; that it is the caller's no more after the call is Rust's rule for moved values. -/
inductive Act where
  | call (op : Op)
  | keys (sk : SharedKeys)

/-- A sequence of these. `set_shared_keys` (encoder/mod.rs:181-183) returns nothing; the results are those of the others. -/
def Enc.acts (c : Cfg) (e : Enc) : List Act → Exec (Enc × List (Except EncodeError Unit))
  | [] => .ok (e, [])
  | .call op :: as => do
    let (e, r) ← e.step c op
    let (e, rs) ← e.acts c as
    pure (e, r :: rs)
  | .keys sk :: as => (e.setSharedKeys sk).acts c as

end Fleece
