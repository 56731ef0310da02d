import Verif.Model.Dict
import Verif.Model.Mutable

/-!
# The iterators one call at a time, and what they announce

`array::Iter` and the two iterators of `Dict` are in Model/Value.lean and Model/Dict.lean. A `size_hint` of `(n, Some(n))` is
the number `n`.
-/

namespace Fleece

/-- `size_hint` of `dict::SharedKeyIter` and `dict::Iter`, value/dict.rs:260-263, 279-282. -/
def Iter.dictHint (dbg : Bool) (it : Iter) : R Nat := do
  let n ← it.sizeHint dbg
  pure (n / 2)

/-- `ArrayAccess::size_hint`, de.rs:269-271, with `array::Iter::len`, value/array.rs:223-225. -/
def Iter.seqHint (it : Iter) : Nat := it.len

/-- `DictAccess::size_hint`, de.rs:321-323. -/
def Iter.mapHint (it : Iter) : Nat := it.len / 2

/-- `mutable::array::Iter`, mutable/array.rs:184-187. -/
structure MutArrayIter where
  list : List Slot
  index : Nat

/-- `MutableArray::into_iter`, mutable/array.rs:208-213. -/
def MutArrayIter.new (list : List Slot) : MutArrayIter := ⟨list, 0⟩

/-- `next`, mutable/array.rs:192-196. The index cannot overflow in a lifetime. -/
def MutArrayIter.step (it : MutArrayIter) : R (Option Slot × MutArrayIter) :=
  .ok (it.list[it.index]?, { it with index := it.index + 1 })

/-- `size_hint`, mutable/array.rs:198-201. -/
def MutArrayIter.hint (it : MutArrayIter) : Nat := it.list.length

/-- `mutable::dict::Iter`, mutable/dict.rs:175-178: `btree_map::Iter` is what is left of the entries. -/
structure MutDictIter where
  rest : List (Key × Slot)
  sk : Option SharedKeys

/-- `MutableDict::into_iter`, mutable/dict.rs:252-258. -/
def MutDictIter.new (sk : Option SharedKeys) (map : List (Key × Slot)) : MutDictIter := ⟨map, sk⟩

/-- `next`, mutable/dict.rs:236-240. -/
def MutDictIter.step (it : MutDictIter) : R (Option (List UInt8 × Slot) × MutDictIter) :=
  match it.rest with
  | [] => .ok (none, it)
  | e :: r => .ok ((mutDecodeKey it.sk e.1).map fun k => (k, e.2), { it with rest := r })

/-- `size_hint`, mutable/dict.rs:242-244: `btree_map::Iter` knows its length. -/
def MutDictIter.hint (it : MutDictIter) : Nat := it.rest.length

end Fleece
