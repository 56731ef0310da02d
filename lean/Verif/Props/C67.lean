import Verif.Proofs.Even
import Verif.Props.C20
import Verif.Props.C33

/-!
# C67 Values lie at even offsets; `is_mutable`

The format keeps all values at even offsets, and the lowest bit of an address is free to mark mutable values: `is_mutable` looks at
it. Full claim: every value handed out lies at an even offset, and `is_mutable` is false of values of documents and true of
those of mutable collections. The first part holds. The second does not: a buffer may start at an odd address, and nothing puts
mutable values at odd ones.
-/

namespace Fleece.Props
open Fleece Res

/-- **C67, even offsets.** In every accepted document, in both profiles, every value that can be got hold of by indexing, iteration
or lookup lies at an even offset. -/
theorem C67_even (m : Mem) (root v : Val) (scope : Option SharedKeys) (h : fromBytes m = .ok root) (hr : Reach m scope root v) :
    v.pos % 2 = 0 := hr.even (fromBytes_even h)

/-- **C67, even offsets without validation**, if the data have an even number of bytes, whatever they are. -/
theorem C67_even_unchecked (m : Mem) (root v : Val) (scope : Option SharedKeys) (hl : m.data.length % 2 = 0)
    (h : fromBytesUnchecked m = .ok root) (hr : Reach m scope root v) : v.pos % 2 = 0 :=
  hr.even (fromBytesUnchecked_parity h hl)

/-- **C67, `is_mutable` in documents.** It is false of every value if the buffer starts at an even address, and true of every
value if at an odd one. -/
theorem C67_document_partial (m : Mem) (root v : Val) (scope : Option SharedKeys) (h : fromBytes m = .ok root)
    (hr : Reach m scope root v) : v.isMutable m = (m.base % 2 != 0) := by
  have := C67_even m root v scope h hr
  have e : (m.base + v.pos) % 2 = m.base % 2 := by omega
  unfold Val.isMutable
  rw [e]

/-- **C67 is false of the code: documents.** Every document that decodes, read where it starts at an odd address, is mutable by its
own account. -/
theorem C67_refuted (F : FloatOps) (scope : Option SharedKeys) (out : List UInt8) (t : Tree) (h : Decodes F scope out t) (base : Nat)
    (dbg : Bool) (hb : base + out.length < 2 ^ 64) (hodd : base % 2 = 1) :
    ∃ root, fromBytes ⟨out, base, dbg⟩ = .ok root ∧ ∀ v, Reach ⟨out, base, dbg⟩ scope root v → v.isMutable ⟨out, base, dbg⟩ = true := by
  obtain ⟨root, _, h1, _⟩ := h ⟨out, base, dbg⟩ rfl hb
  refine ⟨root, h1, fun v hr => ?_⟩
  rw [C67_document_partial _ root v scope h1 hr]
  simp [hodd]

/-- **C67 is false of the code: mutable collections.** The value got from a mutable collection, wherever it is, is mutable by its
own account exactly if its bytes were put at an odd address, which is up to the allocator. -/
theorem C67_refuted_mutable (s : Slot) (x : Sel) (bs : List UInt8) (_ : s.get x = some bs) (base : Nat) (dbg : Bool) :
    Val.isMutable ⟨bs, base, dbg⟩ ⟨0, bs.length⟩ = (base % 2 != 0) := rfl

/-! ## Cases -/

/-- `[true, "abc"]`: the array, its two values and the root. -/
def evenBytes : List UInt8 := [0x43, 0x61, 0x62, 0x63, 0x60, 0x02, 0x38, 0x00, 0x80, 0x04, 0x80, 0x03]

set_option maxRecDepth 20000 in
example : fromBytes { data := evenBytes } = .ok ⟨4, 6⟩ ∧ Val.get { data := evenBytes } ⟨4, 6⟩ 0 = .ok (some ⟨6, 2⟩) ∧
    Val.get { data := evenBytes } ⟨4, 6⟩ 1 = .ok (some ⟨0, 8⟩) ∧ Val.isMutable { data := evenBytes } ⟨6, 2⟩ = false := by
  decide +kernel

/-- The same at address 1. -/
example : fromBytes { data := evenBytes, base := 1 } = .ok ⟨4, 6⟩ ∧ Val.isMutable { data := evenBytes, base := 1 } ⟨6, 2⟩ = true := by
  decide +kernel

/-- Without validation and with an odd number of bytes, offsets are odd. -/
example : fromBytesUnchecked { data := 0 :: evenBytes } = .ok ⟨5, 6⟩ := by decide +kernel

/-- A number in a mutable array. -/
example : ∃ s bs, Slot.new true (.i16 5) = .ok s ∧ (Slot.arr [s]).get (.idx 0) = some bs ∧
    Val.isMutable ⟨bs, 16, true⟩ ⟨0, bs.length⟩ = false := ⟨_, _, rfl, rfl, rfl⟩

end Fleece.Props
