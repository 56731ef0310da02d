import Verif.Proofs.Access

/-! # C09 Accepted documents can be traversed without leaving the buffer -/

namespace Fleece.Props
open Fleece Res

/-- **C09.** If the overflow-checked decoder accepts a byte string then, in either profile, for every value that can
be obtained from the root through the API, every reader call on it (see `EveryCall`) stays inside the buffer and ends;
with or without a scope, and with any shared keys. -/
theorem C09_traversal_in_bounds (m : Mem) (hdbg : m.dbg = true) (root : Val) (hok : fromBytes m = .ok root)
    (m' : Mem) (hm : m' = m ∨ m' = { m with dbg := false }) (F : FloatOps) (scope : Option SharedKeys)
    (v : Val) (hv : Reach m' scope root v) :
    EveryCall (fun x => x ≠ .ub ∧ x ≠ .diverge) m' F scope v := by
  have hd : DeepOK m root := fromBytesGo_deep hdbg _ _ hok
  have hd' : DeepOK m' root := by
    rcases hm with rfl | rfl
    · exact hd
    · exact hd.rel hdbg
  have h := (hd'.reach hv).everyCall F scope
  exact {
    type := (safe_iff _).mp h.type
    toBool := (safe_iff _).mp h.toBool
    toInt := (safe_iff _).mp h.toInt
    toUnsignedInt := (safe_iff _).mp h.toUnsignedInt
    toShort := (safe_iff _).mp h.toShort
    toUnsignedShort := (safe_iff _).mp h.toUnsignedShort
    toDouble := (safe_iff _).mp h.toDouble
    toFloat := (safe_iff _).mp h.toFloat
    toData := (safe_iff _).mp h.toData
    toStr := (safe_iff _).mp h.toStr
    asArray := (safe_iff _).mp h.asArray
    asDict := (safe_iff _).mp h.asDict
    array := fun ha => by
      obtain ⟨h1, h2, h3, h4⟩ := h.array ha
      exact ⟨(safe_iff _).mp h1, (safe_iff _).mp h2, fun it hi => (safe_iff _).mp (h3 it hi),
        fun n i hn hi => (safe_iff _).mp (h4 n i hn hi)⟩
    dict := fun ha => by
      obtain ⟨h1, h2, h3, h4, h5⟩ := h.dict ha
      exact ⟨(safe_iff _).mp h1, (safe_iff _).mp h2, (safe_iff _).mp h3,
        fun it hi => (safe_iff _).mp (h4 it hi),
        fun k => ⟨(safe_iff _).mp (h5 k).1, (safe_iff _).mp (h5 k).2.1,
          fun sk => (safe_iff _).mp ((h5 k).2.2 sk)⟩⟩ }

/-- `[[5]]`: accepted, and the inner array and its element are reachable. -/
example : fromBytes { data := [0x60, 0x01, 0x00, 0x05, 0x60, 0x01, 0x80, 0x03, 0x80, 0x02] } = .ok ⟨4, 4⟩ := by
  decide +kernel
example : Reach { data := [0x60, 0x01, 0x00, 0x05, 0x60, 0x01, 0x80, 0x03, 0x80, 0x02] } none ⟨4, 4⟩ ⟨2, 2⟩ :=
  (Reach.root.child (.index (n := 1) (i := 0) (x := ⟨0, 6⟩) (by decide +kernel) (by decide +kernel) (by decide)
    (by decide +kernel))).child (.index (n := 1) (i := 0) (by decide +kernel) (by decide +kernel) (by decide)
    (by decide +kernel))

end Fleece.Props
