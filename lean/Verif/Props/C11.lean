import Verif.Proofs.Access

/-! # C11 An accepted document is a finite tree -/

namespace Fleece.Props
open Fleece Res

/-- **C11.** From the root of an accepted document there is no endless descent: no infinite chain of values each handed
out by an API call on the one before. In particular no value contains itself. -/
theorem C11_no_infinite_descent (m : Mem) (hdbg : m.dbg = true) (root : Val) (hok : fromBytes m = .ok root)
    (m' : Mem) (hm : m' = m ∨ m' = { m with dbg := false }) (scope : Option SharedKeys) (f : Nat → Val)
    (h0 : f 0 = root) : ¬ ∀ n, Child m' scope (f n) (f (n + 1)) := by
  have hd : DeepOK m root := fromBytesGo_deep hdbg _ _ hok
  rcases hm with rfl | rfl
  · exact hd.no_descent f h0
  · exact (hd.rel hdbg).no_descent f h0

/-- **C11.** A complete traversal of an accepted document, in either profile, terminates and stays in bounds: from some
depth on the depth limit of `readTree` is never reached. -/
theorem C11_traversal_terminates (m : Mem) (hdbg : m.dbg = true) (root : Val) (hok : fromBytes m = .ok root)
    (m' : Mem) (hm : m' = m ∨ m' = { m with dbg := false }) (F : FloatOps) (scope : Option SharedKeys) :
    ∃ depth, ∀ d, depth ≤ d → readTree m' F scope d root ≠ .diverge ∧ readTree m' F scope d root ≠ .ub := by
  have hd : DeepOK m root := fromBytesGo_deep hdbg _ _ hok
  have hd' : DeepOK m' root := by
    rcases hm with rfl | rfl
    · exact hd
    · exact hd.rel hdbg
  obtain ⟨f, hf⟩ := hd'.readTree_safe F scope
  exact ⟨f, fun d h => ((safe_iff _).mp (hf d h)).symm⟩

set_option maxRecDepth 20000 in
/-- A nested document, and what the traversal gives. -/
example : ∀ F, readTree { data := [0x60, 0x01, 0x00, 0x05, 0x60, 0x01, 0x80, 0x03, 0x80, 0x02] } F none 3 ⟨4, 4⟩
    = .ok (.arr [.arr [.int 5]]) := fun _ => rfl

end Fleece.Props
