import Verif.Proofs.Profile

/-! # C16 Unchecked decoding agrees with checked decoding -/

namespace Fleece.Props
open Fleece Res

private theorem unchecked_of_root {m : Mem} {v : Val} (h : findRoot m = .ok v) : fromBytesUnchecked m = .ok v := by
  unfold findRoot at h
  dsimp only at h
  split at h
  · cases h
  · rename_i hn
    rw [bind_eq_ok] at h; obtain ⟨t, ht, h⟩ := h
    unfold fromBytesUnchecked
    dsimp only
    rw [if_neg (by omega)]
    simp only [ht, ok_bind]
    split
    · rename_i htp
      rw [if_pos htp] at h
      exact derefUnchecked_eq h
    · rename_i htp
      rw [if_neg htp] at h
      split
      · rename_i h2; rw [if_pos h2] at h; exact h
      · rename_i h2; rw [if_neg h2] at h; cases h

/-- **C16.** Whenever `from_bytes` accepts (in either profile), `from_bytes_unchecked` returns the same value: no panic,
no out-of-bounds access. -/
theorem C16_unchecked_agrees (m : Mem) (v : Val) (h : fromBytes m = .ok v) : fromBytesUnchecked m = .ok v := by
  unfold fromBytes fromBytesGo at h
  rw [bind_eq_ok] at h; obtain ⟨r, hr, h⟩ := h
  rw [bind_eq_ok] at h; obtain ⟨_, _, h⟩ := h
  cases h
  exact unchecked_of_root hr

/-- … and a document accepted by the checked build is read the same by an unchecked call in a release build. -/
theorem C16_unchecked_agrees_release (m : Mem) (hdbg : m.dbg = true) (v : Val) (h : fromBytes m = .ok v) :
    fromBytesUnchecked { m with dbg := false } = .ok v := by
  apply C16_unchecked_agrees
  exact LePanic.ok (fromBytesGo_prof hdbg _) h

example : fromBytes { data := [0x60, 0x01, 0x00, 0x05, 0x80, 0x02] } = .ok ⟨0, 4⟩ := by decide +kernel
/-- On a rejected document the unchecked decoder reads outside the buffer. -/
example : fromBytesUnchecked { data := [0x60, 0x01, 0x00, 0x05, 0x80, 0x20] } = .ub := by decide +kernel

end Fleece.Props
