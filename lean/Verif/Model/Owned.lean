import Verif.Model.Dict
import Verif.Model.Macro

/-! # Comparing owned values (alloced.rs:143-173) -/

namespace Fleece

/-- The address in `self.value`, alloced.rs:15, without the length that a pointer to a slice also has (`cast::<()>`). -/
def Alloced.addr (a : Alloced) : Nat := a.mem.base + a.value.pos

/-- `Alloced::clone`, alloced.rs:100-107: the reference count of the buffer is not modelled. -/
def Alloced.clone (a : Alloced) : Alloced := ⟨a.mem, a.value⟩

/-- `Alloced::eq`, alloced.rs:154-158. -/
def Alloced.eq (a b : Alloced) : Bool := a.addr == b.addr

/-- `Alloced::cmp`, alloced.rs:168-172, and `partial_cmp`, alloced.rs:162-166, which is its `Some`. -/
def Alloced.cmp (a b : Alloced) : Ordering := cmpNat a.addr b.addr

/-- `==` of what `Borrow<*const T>` gives, alloced.rs:135-142: pointers to slices are equal if the addresses and the lengths
are (core, `impl PartialEq for *const T`). -/
def Alloced.ptrEq (a b : Alloced) : Bool := a.addr == b.addr && a.value.len == b.value.len

/-- `cmp` of what `Borrow<*const T>` gives: addresses first, then lengths (core, `impl Ord for *const T`). -/
def Alloced.ptrCmp (a b : Alloced) : Ordering :=
  match cmpNat a.addr b.addr with
  | .eq => cmpNat a.value.len b.value.len
  | o => o

end Fleece
