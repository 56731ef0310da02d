import Verif.Proofs.DebugSafe

/-! # C45 An accepted document can be printed with `{:?}` -/

namespace Fleece.Props
open Fleece Res

private theorem deep (m : Mem) (hdbg : m.dbg = true) (root : Val) (hok : fromBytes m = .ok root)
    (m' : Mem) (hm : m' = m ∨ m' = { m with dbg := false }) : DeepOK m' root := by
  have hd : DeepOK m root := fromBytesGo_deep hdbg _ _ hok
  rcases hm with rfl | rfl
  · exact hd
  · exact hd.rel hdbg

/-- **C45**, memory safety and termination: formatting any value reachable in a document accepted by the overflow-checked
decoder never reads outside the buffer and ends, in either profile. -/
theorem C45_debug_in_bounds (m : Mem) (hdbg : m.dbg = true) (root : Val) (hok : fromBytes m = .ok root)
    (m' : Mem) (hm : m' = m ∨ m' = { m with dbg := false }) (P : Printer) (F : FloatOps) (scope : Option SharedKeys)
    (v : Val) (hv : Reach m' scope root v) :
    (∀ d, v.debug P m' F scope d ≠ .ub) ∧ ∃ depth, ∀ d, depth ≤ d → v.debug P m' F scope d ≠ .diverge := by
  obtain ⟨N, hN⟩ := ((deep m hdbg root hok m' hm).reach hv).debug_fine P F scope
  exact ⟨fun d => (hN d).1, N, fun d hd => (hN d).2 hd⟩

/-- **C45**, no panic, as far as it holds: formatting returns if no float that can be reached from the value has a slice
shorter than 6 (10) bytes. The proviso is necessary: `C45_panics`. -/
theorem C45_debug_returns_partial (m : Mem) (hdbg : m.dbg = true) (root : Val) (hok : fromBytes m = .ok root)
    (m' : Mem) (hm : m' = m ∨ m' = { m with dbg := false }) (P : Printer) (F : FloatOps) (scope : Option SharedKeys)
    (v : Val) (hv : Reach m' scope root v)
    (hf : ∀ y, Reach m' scope v y → ((y.type m' = .ok .float ∨ y.type m' = .ok .double32) → 6 ≤ y.len) ∧
      (y.type m' = .ok .double64 → 10 ≤ y.len)) :
    ∃ depth, ∀ d, depth ≤ d → ∃ text, v.debug P m' F scope d = .ok text :=
  ((deep m hdbg root hok m' hm).reach hv).debug_ok P F scope hf

set_option maxRecDepth 20000 in
/-- The full statement of C45 is false: the document is accepted, printing it panics. -/
theorem C45_panics : fromBytes { data := [0x20, 0, 1, 2, 0x80, 0x02] } = .ok ⟨0, 4⟩ ∧
    ∀ P F d, (⟨0, 4⟩ : Val).debug P { data := [0x20, 0, 1, 2, 0x80, 0x02] } F none (d + 1) = .panic :=
  ⟨by decide +kernel, fun _ _ _ => rfl⟩

set_option maxRecDepth 20000 in
/-- `[[5]]` is accepted and printed; depth 3 is enough. -/
example : fromBytes { data := [0x60, 0x01, 0x00, 0x05, 0x60, 0x01, 0x80, 0x03, 0x80, 0x02] } = .ok ⟨4, 4⟩ ∧
    ∀ P F, (⟨4, 4⟩ : Val).debug P { data := [0x60, 0x01, 0x00, 0x05, 0x60, 0x01, 0x80, 0x03, 0x80, 0x02] } F none 3 =
      .ok "Array([Array([Short(5)])])".toList :=
  ⟨by decide +kernel, fun _ _ => rfl⟩

/-- No float is reachable from `5`. -/
example : ∀ y, Reach { data := [0x00, 0x05] } none ⟨0, 2⟩ y →
    ((y.type { data := [0x00, 0x05] } = .ok .float ∨ y.type { data := [0x00, 0x05] } = .ok .double32) → 6 ≤ y.len) ∧
      (y.type { data := [0x00, 0x05] } = .ok .double64 → 10 ≤ y.len) := by
  have ht : (⟨0, 2⟩ : Val).type { data := [0x00, 0x05] } = .ok .short := by decide +kernel
  intro y hy
  have : y = ⟨0, 2⟩ := by
    induction hy with
    | root => rfl
    | child _ hc ih =>
      subst ih
      have hd : DeepOK { data := [0x00, 0x05] } ⟨0, 2⟩ := fromBytesGo_deep rfl 10 _ (by decide +kernel)
      obtain ⟨t, _, _, _, _, h1, h2, _⟩ := hd.child hc
      rw [ht] at h1; cases h1
      rcases h2 with h2 | h2 <;> cases h2
  subst this
  rw [ht]
  refine ⟨?_, nofun⟩
  rintro (h | h)
  · cases h
  · cases h

end Fleece.Props
