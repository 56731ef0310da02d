import Verif.Proofs.Groups
import Verif.Model.Value

/-!
# C69 A length prefix is read as the number it is, or refused

Prefixes written by anyone (those of the encoder: C01). The claim is false of numbers of more than 64 bits: the check meant to
refuse them compares the position with a value that it never has (varint.rs:26).
-/

namespace Fleece.Props
open Fleece Res Spec

/-- **C69, numbers of 64 bits.** A prefix of at most ten bytes, also one longer than needed, is read as the number it is; as many
bytes are used as it has, whatever follows. -/
theorem C69_reads_partial {ε : Type} (dbg : Bool) (g : List UInt8) (n : Nat) (h : Groups g n) (hl : g.length ≤ 10)
    (hn : n < 2 ^ 64) (rest : List UInt8) : Varint.read (ε := ε) dbg (g ++ rest) = .ok (g.length, n) := by
  rw [Varint.read_groups dbg h hl, Nat.mod_eq_of_lt hn]

/-- **C69, incomplete prefixes** are refused, those of eleven bytes or more by the checked build with a panic. -/
theorem C69_incomplete {ε : Type} (dbg : Bool) (bs : List UInt8) (h : ∀ b ∈ bs, 128 ≤ b.toNat) :
    Varint.read (ε := ε) dbg bs = if dbg = true ∧ 11 ≤ bs.length then .panic else .ok (0, 0) :=
  Varint.read_all dbg bs h

/-- **C69, refuted for all larger numbers.** Ten bytes that are a number of more than 64 bits are read, as another number. -/
theorem C69_refuted {ε : Type} (dbg : Bool) (g : List UInt8) (n : Nat) (h : Groups g n) (hl : g.length ≤ 10) (hn : 2 ^ 64 ≤ n)
    (rest : List UInt8) : ∃ k, Varint.read (ε := ε) dbg (g ++ rest) = .ok (g.length, k) ∧ k = n % 2 ^ 64 ∧ k ≠ n := by
  refine ⟨_, Varint.read_groups dbg h hl rest, rfl, ?_⟩
  have : n % 2 ^ 64 < 2 ^ 64 := Nat.mod_lt _ (by decide)
  omega

/-- **C69, longer prefixes.** With eleven bytes or more the checked build panics; the other build refuses more than eleven and
makes something of eleven. -/
theorem C69_long {ε : Type} (g : List UInt8) (n : Nat) (h : Groups g n) (hl : 11 ≤ g.length) (rest : List UInt8) :
    Varint.read (ε := ε) true (g ++ rest) = .panic ∧
    (11 < g.length → Varint.read (ε := ε) false (g ++ rest) = .ok (0, 0)) ∧
    (g.length = 11 → ∃ x, Varint.read (ε := ε) false (g ++ rest) = .ok (11, x)) := Varint.read_long h hl rest

/-- **C69, nothing is left out**: a byte string begins with a complete prefix, or is an incomplete one. -/
theorem C69_cases (bs : List UInt8) : (∃ g n rest, bs = g ++ rest ∧ Groups g n) ∨ ∀ b ∈ bs, 128 ≤ b.toNat :=
  Varint.groups_or bs

/-- A string that announces 2^64 + 5 bytes, and a pointer to it. -/
def hugeString : List UInt8 :=
  [0x4F, 0x85, 0x80, 0x80, 0x80, 0x80, 0x80, 0x80, 0x80, 0x80, 0x02, 0x68, 0x65, 0x6C, 0x6C, 0x6F, 0x80, 0x08]

/-- **C69, a document** with such a prefix is accepted in both builds: the string has five bytes. -/
theorem C69_refuted_document : Groups [0x85, 0x80, 0x80, 0x80, 0x80, 0x80, 0x80, 0x80, 0x80, 0x02] (2 ^ 64 + 5) ∧
    ∀ dbg, fromBytes ⟨hugeString, 0, dbg⟩ = .ok ⟨0, 16⟩ ∧
      (⟨0, 16⟩ : Val).toStr ⟨hugeString, 0, dbg⟩ = .ok [0x68, 0x65, 0x6C, 0x6C, 0x6F] := by
  refine ⟨?_, by decide +kernel⟩
  exact .more (b := 0x85) (by decide) <| .more (b := 0x80) (by decide) <| .more (b := 0x80) (by decide) <|
    .more (b := 0x80) (by decide) <| .more (b := 0x80) (by decide) <| .more (b := 0x80) (by decide) <|
    .more (b := 0x80) (by decide) <| .more (b := 0x80) (by decide) <| .more (b := 0x80) (by decide) <| .last (b := 0x02) (by decide)

/-- Eleven bytes: 2^70, which the unchecked build takes for 64. -/
example : Varint.read (ε := DecodeError) false [0x80, 0x80, 0x80, 0x80, 0x80, 0x80, 0x80, 0x80, 0x80, 0x80, 0x01] = .ok (11, 64) := by
  decide +kernel

/-- A prefix longer than needed: 5 in three bytes. -/
example : Groups [0x85, 0x80, 0x00] 5 :=
  .more (b := 0x85) (by decide) <| .more (b := 0x80) (by decide) <| .last (b := 0x00) (by decide)

example : ∀ b ∈ ([0x80, 0xFF] : List UInt8), 128 ≤ b.toNat := by decide

end Fleece.Props
