import Verif.Model.Encoder
import Verif.Spec.Tree

/-!
# `src/mutable.rs`, `src/mutable/array.rs`, `src/mutable/dict.rs`

`Vec` is a list. `BTreeMap` is modelled by its documented behaviour (trusted base): a list of entries in increasing order
of the keys, searched from the left. The `Arc<SharedKeys>` of a dict cannot change while it is shared, so it is a value.
-/

namespace Fleece

/-- A call without an `Err` of its own, made from a reader. -/
def Exec.lift {α : Type} : Exec α → R α
  | .ok a => .ok a
  | .err x => nomatch x
  | .panic => .panic
  | .ub => .ub
  | .diverge => .diverge

/-- The derived order of `Key`, mutable/dict.rs:305-309: `Shared` before `String`, then the contents. The type has the same
constructors as `dict::Key`. -/
def Key.cmp : Key → Key → Ordering
  | .shared a, .shared b => cmpNat a b
  | .shared _, .string _ => .lt
  | .string _, .shared _ => .gt
  | .string a, .string b => cmpBytes a b

/-- `ValueSlot`, mutable.rs:17-22, with `MutableArray` (array.rs:14-16) and `MutableDict` (dict.rs:17-20) unfolded. -/
inductive Slot where
  | inline (b : List UInt8)
  | boxed (b : List UInt8)
  | arr (l : List Slot)
  | dict (sk : Option SharedKeys) (map : List (Key × Slot))

/-! ## `BTreeMap<Key, ValueSlot>` -/

/-- `BTreeMap::get`. -/
def mapGet (k : Key) : List (Key × Slot) → Option Slot
  | [] => none
  | e :: r =>
    match k.cmp e.1 with
    | .lt => none
    | .eq => some e.2
    | .gt => mapGet k r

/-- `BTreeMap::insert`; writing through `get_mut` is the same for a key that is present. -/
def mapInsert (k : Key) (s : Slot) : List (Key × Slot) → List (Key × Slot)
  | [] => [(k, s)]
  | e :: r =>
    match k.cmp e.1 with
    | .lt => (k, s) :: e :: r
    | .eq => (k, s) :: r
    | .gt => e :: mapInsert k s r

/-- `BTreeMap::remove`. -/
def mapRemove (k : Key) : List (Key × Slot) → List (Key × Slot)
  | [] => []
  | e :: r =>
    match k.cmp e.1 with
    | .lt => e :: r
    | .eq => r
    | .gt => e :: mapRemove k r

namespace Slot

/-- `INLINE_CAPACITY`, mutable.rs:14. -/
def inlineCapacity : Nat := 15

/-- `ValueSlot::new`, mutable.rs:25-38. The buffer is zeroed; what `write_fleece_to` returns is not looked at. -/
def ofItem (dbg : Bool) (x : Item) : Exec Slot :=
  if x.size ≤ inlineCapacity then do
    match ← x.writeTo dbg inlineCapacity false with
    | some bs => pure (.inline (bs ++ List.replicate (inlineCapacity - bs.length) 0))
    | none => pure (.inline (List.replicate inlineCapacity 0))
  else do
    match ← x.writeTo dbg x.size false with
    | some bs => pure (.boxed (bs ++ List.replicate (x.size - bs.length) 0))
    | none => pure (.boxed (List.replicate x.size 0))

/-- `ValueSlot::new` of what a user can pass. -/
def new (dbg : Bool) (x : Scalar) : Exec Slot := ofItem dbg (.scalar x)

/-- `ValueSlot::value`, mutable.rs:90-98: the bytes of the value. -/
def value : Slot → Option (List UInt8)
  | .inline b => some b
  | .boxed b => some b
  | _ => none

/-- `ValueSlot::array` and `array_mut`, mutable.rs:100-105, 114-119. -/
def array : Slot → Option (List Slot)
  | .arr l => some l
  | _ => none

/-- `ValueSlot::dict` and `dict_mut`, mutable.rs:107-112, 121-126. -/
def asDict : Slot → Option (Option SharedKeys × List (Key × Slot))
  | .dict sk map => some (sk, map)
  | _ => none

end Slot

/-- `MutableDict::encode_key`, mutable/dict.rs:159-164. -/
def mutEncodeKey (sk : Option SharedKeys) (key : List UInt8) : Key :=
  match sk.bind (·.encode key) with
  | some c => .shared c
  | none => .string key

/-- `Iter::decode_key`, mutable/dict.rs:221-230. -/
def mutDecodeKey (sk : Option SharedKeys) : Key → Option (List UInt8)
  | .shared c => sk.bind (·.decode c)
  | .string s => some s

/-! ## Reading -/

/-- How an element is addressed: `usize` for arrays, `&str` for dicts. -/
inductive Sel where
  | idx (i : Nat)
  | key (k : List UInt8)

namespace Slot

/-- The slot of an element: `self.list.get(index)` of array.rs:47-57, `self.map.get(&encoded_key)` of dict.rs:84-99. A
dict is not indexed by numbers, nor an array by strings. -/
def child : Slot → Sel → Option Slot
  | .arr l, .idx i => l[i]?
  | .dict sk map, .key k => mapGet (mutEncodeKey sk k) map
  | _, _ => none

/-- `get`, array.rs:47-49 and dict.rs:84-87: the bytes of the value. -/
def get (s : Slot) (x : Sel) : Option (List UInt8) := (s.child x).bind value

/-- `get_array`, array.rs:51-53 and dict.rs:90-93. -/
def getArray (s : Slot) (x : Sel) : Option (List Slot) := (s.child x).bind array

/-- `get_dict`, array.rs:55-57 and dict.rs:96-99. -/
def getDict (s : Slot) (x : Sel) : Option (Option SharedKeys × List (Key × Slot)) := (s.child x).bind asDict

/-- `contains_key`, dict.rs:117-120. -/
def containsKey (s : Slot) (k : List UInt8) : Bool := (s.child (.key k)).isSome

/-- `len`, array.rs:69-71 and dict.rs:73-75. -/
def len : Slot → Nat
  | .arr l => l.length
  | .dict _ map => map.length
  | _ => 0

/-- What iterating over an array yields, array.rs:189-196, 204-214. -/
def items : Slot → List Slot
  | .arr l => l
  | _ => []

/-- What iterating over a dict yields, dict.rs:233-240, 247-259: it ends at the first key that cannot be decoded. -/
def pairsGo (sk : Option SharedKeys) : List (Key × Slot) → List (List UInt8 × Slot)
  | [] => []
  | e :: r =>
    match mutDecodeKey sk e.1 with
    | none => []
    | some k => (k, e.2) :: pairsGo sk r

/-- The same. -/
def pairs : Slot → List (List UInt8 × Slot)
  | .dict sk map => pairsGo sk map
  | _ => []

end Slot

/-! ## Changing -/

/-- One step down: `get_array`/`get_array_mut` (`dict = false`) or `get_dict`/`get_dict_mut` of an element. -/
structure Hop where
  sel : Sel
  dict : Bool

namespace Slot

/-- Where a new slot is put: `set`, `set_array`, `set_dict`, `set_fleece` (array.rs:81-102); `push`, `push_fleece`
(104-115); `insert`, `insert_dict`, `insert_array` (dict.rs:124-145). -/
inductive Place where
  | set (i : Nat)
  | push
  | insert (k : List UInt8)

/-- Those calls, given the slot. `replace` (array.rs:131-133) panics if the index is out of range. Calls that do not exist
for the kind of collection do nothing here. -/
def put (p : Place) (x : Slot) : Slot → Exec Slot
  | .arr l =>
    match p with
    | .set i => if i < l.length then .ok (.arr (l.set i x)) else .panic
    | .push => .ok (.arr (l ++ [x]))
    | .insert _ => .ok (.arr l)
  | .dict sk map =>
    match p with
    | .insert k => .ok (.dict sk (mapInsert (mutEncodeKey sk k) x map))
    | _ => .ok (.dict sk map)
  | s => .ok s

/-- `remove`, array.rs:117-123 and dict.rs:147-150. -/
def remove (x : Sel) : Slot → Exec Slot
  | .arr l =>
    match x with
    | .idx i => if i ≥ l.length then .ok (.arr l) else .ok (.arr (l.eraseIdx i))
    | .key _ => .ok (.arr l)
  | .dict sk map =>
    match x with
    | .key k => .ok (.dict sk (mapRemove (mutEncodeKey sk k) map))
    | .idx _ => .ok (.dict sk map)
  | s => .ok s

/-- `ValueSlot::is_array`, `is_dict`, mutable.rs:81-88. -/
def isKind (dict : Bool) : Slot → Bool
  | .arr _ => !dict
  | .dict _ _ => dict
  | _ => false

/-- Follow `get_array`/`get_dict` down the path. -/
def follow : List Hop → Slot → Option Slot
  | [], s => some s
  | h :: p, s =>
    match s.child h.sel with
    | some c => if c.isKind h.dict then c.follow p else none
    | none => none

/-- Make the call `f` on the collection reached by `get_array_mut`/`get_dict_mut` (array.rs:59-65, dict.rs:102-113) down
the path; a `None` on the way means there is nothing to call. -/
def update (f : Slot → Exec Slot) : List Hop → Slot → Exec Slot
  | [], s => f s
  | h :: p, s =>
    match s.child h.sel with
    | none => .ok s
    | some c =>
      if c.isKind h.dict then do
        let c' ← c.update f p
        match s, h.sel with
        | .arr l, .idx i => .ok (.arr (l.set i c'))
        | .dict sk map, .key k => .ok (.dict sk (mapInsert (mutEncodeKey sk k) c' map))
        | s, _ => .ok s
      else .ok s

mutual
/-- `<ValueSlot as Clone>::clone`, mutable.rs:138-151, with the derived one of `MutableArray` (array.rs:13) and
`<MutableDict as Clone>::clone`, dict.rs:271-283. -/
def clone : Slot → Slot
  | .inline b => .inline b
  | .boxed b => .boxed b
  | .arr l => .arr (cloneList l)
  | .dict sk map => .dict sk (cloneMap map [])

/-- `Vec::clone`. -/
def cloneList : List Slot → List Slot
  | [] => []
  | s :: r => clone s :: cloneList r

/-- The loop of dict.rs:277-280. -/
def cloneMap : List (Key × Slot) → List (Key × Slot) → List (Key × Slot)
  | [], new => new
  | e :: r, new => cloneMap r (mapInsert e.1 (clone e.2) new)
end

/-- `ValueSlot::new_from_fleece`, mutable.rs:40-66, with `MutableArray::clone_from` (array.rs:26-34) and
`MutableDict::clone_from` (dict.rs:31-34, 57-69). `scope` is what `Scope::find_shared_keys` gives for the address of the
source (one buffer, one scope). `as_array().unwrap()` and `as_dict().unwrap()` succeed for these types. `fuel` bounds the
nesting depth. -/
def newFromFleece (m : Mem) (F : FloatOps) (scope : Option SharedKeys) : Nat → Val → Bool → R Slot
  | 0, _, _ => .diverge
  | fuel + 1, v, isWide => do
    match ← v.type m with
    | .null => (new m.dbg .null).lift
    | .undefined => (new m.dbg .undefined).lift
    | .false => (new m.dbg (.bool Bool.false)).lift
    | .true => (new m.dbg (.bool Bool.true)).lift
    | .short => do
      let i ← v.toShort m F
      (new m.dbg (.i16 (Int16.ofInt i))).lift
    | .int => do
      let i ← v.toInt m F
      (new m.dbg (.i64 (Int64.ofInt i))).lift
    | .unsignedInt => do
      let n ← v.toUnsignedInt m F
      (new m.dbg (.u64 (UInt64.ofNat n))).lift
    | .float => do
      let b ← v.toFloat m F
      (new m.dbg (.f32 b)).lift
    | .double32 | .double64 => do
      let b ← v.toDouble m F
      (new m.dbg (.f64 b)).lift
    | .string => do
      let s ← v.toStr m
      (ofItem m.dbg (.key s)).lift
    | .data => do
      let d ← v.toData m
      (new m.dbg (.data d)).lift
    | .array => do
      let w ← v.isWide m
      let it ← v.iter m
      let xs ← collect m (fun x => newFromFleece m F scope fuel x w) (it.len + 1) it
      pure (.arr xs)
    | .dict => do
      let w ← v.isWide m
      let it ← v.dictIter m
      let kvs ← collectDict m scope (fun x => newFromFleece m F scope fuel x w) (it.len + 1) it
      pure (.dict scope (kvs.foldl (fun map kv => mapInsert (mutEncodeKey scope kv.1) kv.2 map) []))
    | .pointer => do
      let tgt ← derefUnchecked m isWide v
      newFromFleece m F scope fuel tgt Bool.false

end Slot

end Fleece
