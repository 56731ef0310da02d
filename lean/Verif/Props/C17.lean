import Verif.Proofs.Profile

/-! # C17 Debug and release builds decode alike -/

namespace Fleece.Props
open Fleece Res

/-- **C17.** For every byte string (and every recursion depth) on which the overflow-checked build does not panic, the
unchecked build gives the same result: same value, same error, same everything. -/
theorem C17_profiles_agree (data : List UInt8) (base fuel : Nat)
    (h : fromBytesGo ⟨data, base, true⟩ fuel ≠ .panic) :
    fromBytesGo ⟨data, base, false⟩ fuel = fromBytesGo ⟨data, base, true⟩ fuel := by
  rcases fromBytesGo_prof (m := ⟨data, base, true⟩) rfl fuel with h1 | h1
  · exact absurd h1 h
  · exact h1.symm

/-- The hypothesis is necessary: here the checked build panics and the unchecked one accepts. -/
def longCount : List UInt8 :=
  [0x6F, 0xFF, 0x80, 0x80, 0x80, 0x80, 0x80, 0x80, 0x80, 0x80, 0x80, 0x80, 0x00, 0x00, 0x80, 0x07]
example : fromBytes { data := longCount, dbg := true } = .panic := by decide +kernel
example : fromBytes { data := longCount, dbg := false } = .ok ⟨0, 14⟩ := by decide +kernel
example : fromBytes { data := [0x60, 0x01, 0x00, 0x05, 0x80, 0x02], dbg := true } = .ok ⟨0, 4⟩ := by decide +kernel

end Fleece.Props
