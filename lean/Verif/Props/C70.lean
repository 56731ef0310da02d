import Verif.Proofs.Fault
import Verif.Props.C17

/-!
# C70 Decode errors say true things about the input

Each error names what is wrong and by how much. `Spec/Fault.lean` says what that means for the bytes. Builds without overflow
checks are wrong about some counts (`C70_refuted_release`).
-/

namespace Fleece.Props
open Fleece Res Spec Fault

/-- **C70 (checked build).** An error of `Value::from_bytes` is true of the bytes. In particular a value said to be out of bounds
is a number of fixed size, as `Sized` has no others. -/
theorem C70_true_partial (data : List UInt8) (base : Nat) (e : DecodeError) (h : fromBytes ⟨data, base, true⟩ = .err e) :
    Fault data base e := fromBytesGo_fault (m := ⟨data, base, true⟩) rfl h

/-- **C70 (the other build).** The same where the checked build does not panic. -/
theorem C70_release_partial (data : List UInt8) (base : Nat) (e : DecodeError) (hp : fromBytes ⟨data, base, true⟩ ≠ .panic)
    (h : fromBytes ⟨data, base, false⟩ = .err e) : Fault data base e :=
  C70_true_partial data base e ((C17_profiles_agree data base _ hp).symm.trans h)

/-- **C70, the size** is reported exactly if it is wrong (both builds). -/
theorem C70_sized (m : Mem) : fromBytes m = .err .inputIncorrectlySized ↔ (m.data.length = 0 ∨ m.data.length % 2 = 1) := by
  constructor
  · intro h
    rcases fromBytesGo_outer h with h | ⟨_, h⟩
    · exact h.elim
    · cases h; assumption
  · intro h
    unfold fromBytes fromBytesGo findRoot
    dsimp only
    rw [if_pos (by omega)]
    rfl

/-- **C70, the root** is reported exactly if the size is right and the last two bytes, of more, are not a pointer (both builds). -/
theorem C70_root (m : Mem) : fromBytes m = .err .rootNotPointer ↔
    (m.data.length % 2 = 0 ∧ 2 < m.data.length ∧ ∃ b, m.data[m.data.length - 2]? = some b ∧ b.toNat < 128) := by
  constructor
  · intro h
    have hs : ¬ (m.data.length = 0 ∨ m.data.length % 2 = 1) := by
      intro hs
      rw [(C70_sized m).mpr hs] at h
      cases h
    rcases fromBytesGo_outer h with h | ⟨_, h⟩
    · exact h.elim
    · cases h with
      | @root b two h no => exact ⟨by omega, two, b, h, no⟩
  · rintro ⟨h0, h2, b, hb, hlt⟩
    have hby : (⟨m.data.length - 2, 2⟩ : Val).byte m 0 = .ok b := by
      unfold Val.byte
      simp [hb]
    have hne : ValueType.fromByte b ≠ .pointer := by
      intro h
      have := (fromByte_ptr b).mp h
      omega
    unfold fromBytes fromBytesGo findRoot
    dsimp only
    rw [if_neg (by omega), type_ok_iff.mpr ⟨b, hby, rfl⟩]
    simp only [ok_bind]
    rw [if_neg hne, if_neg (by omega)]
    rfl

/-- **C70, kinds.** `Array::from_bytes` says that it is not an array exactly of the documents `Value::from_bytes` accepts as
something else; its other errors are those of `Value::from_bytes`. `Dict::from_bytes` likewise (both builds). -/
theorem C70_kind (m : Mem) :
    (arrayFromBytes m = .err .isNotArray ↔ ∃ v t, fromBytes m = .ok v ∧ v.type m = .ok t ∧ t ≠ .array) ∧
    (dictFromBytes m = .err .isNotDict ↔ ∃ v t, fromBytes m = .ok v ∧ v.type m = .ok t ∧ t ≠ .dict) ∧
    (∀ e, e ≠ .isNotArray → (arrayFromBytes m = .err e ↔ fromBytes m = .err e)) ∧
    (∀ e, e ≠ .isNotDict → (dictFromBytes m = .err e ↔ fromBytes m = .err e)) := by
  have no : ∀ e, (e = .isNotArray ∨ e = .isNotDict) → fromBytes m ≠ .err e := by
    intro e he h
    rcases fromBytesGo_outer h with h | ⟨h | h, _⟩
    · rcases he with rfl | rfl <;> exact h
    · rcases he with rfl | rfl <;> cases h
    · rcases he with rfl | rfl <;> cases h
  refine ⟨⟨?_, ?_⟩, ⟨?_, ?_⟩, ?_, ?_⟩
  · intro h
    rcases bind_eq_err' h with h | ⟨v, hv, h⟩
    · exact absurd h (no _ (.inl rfl))
    · rcases bind_eq_err' h with h | ⟨t, ht, h⟩
      · exact (type_noerr h).elim
      · split at h
        · cases h
        · exact ⟨v, t, hv, ht, by assumption⟩
  · rintro ⟨v, t, hv, ht, hne⟩
    unfold arrayFromBytes
    simp only [hv, ht, ok_bind, if_neg hne]
  · intro h
    rcases bind_eq_err' h with h | ⟨v, hv, h⟩
    · exact absurd h (no _ (.inr rfl))
    · rcases bind_eq_err' h with h | ⟨t, ht, h⟩
      · exact (type_noerr h).elim
      · split at h
        · cases h
        · exact ⟨v, t, hv, ht, by assumption⟩
  · rintro ⟨v, t, hv, ht, hne⟩
    unfold dictFromBytes
    simp only [hv, ht, ok_bind, if_neg hne]
  · intro e he
    constructor
    · intro h
      rcases bind_eq_err' h with h | ⟨v, hv, h⟩
      · exact h
      · rcases bind_eq_err' h with h | ⟨t, ht, h⟩
        · exact (type_noerr h).elim
        · split at h
          · cases h
          · cases h; exact absurd rfl he
    · intro h
      unfold arrayFromBytes
      rw [h]; rfl
  · intro e he
    constructor
    · intro h
      rcases bind_eq_err' h with h | ⟨v, hv, h⟩
      · exact h
      · rcases bind_eq_err' h with h | ⟨t, ht, h⟩
        · exact (type_noerr h).elim
        · split at h
          · cases h
          · cases h; exact absurd rfl he
    · intro h
      unfold dictFromBytes
      rw [h]; rfl

/-- A dict that announces 2^63 + 100 entries. -/
def hugeDict : List UInt8 := [0x77, 0xFF, 0xE4, 0x80, 0x80, 0x80, 0x80, 0x80, 0x80, 0x80, 0x80, 0x01, 0x80, 0x06]

/-- An array that announces 2^64 + 100 elements. -/
def hugeArray : List UInt8 := [0x67, 0xFF, 0xE4, 0x80, 0x80, 0x80, 0x80, 0x80, 0x80, 0x80, 0x80, 0x02, 0x80, 0x06]

/-- Only the first byte of the dict can begin a collection. -/
theorem hugeDict_header {p : Nat} {b : UInt8} (h : hugeDict[p]? = some b) (hk : b.toNat / 16 = 6 ∨ b.toNat / 16 = 7) :
    p = 0 ∧ b = 0x77 := by
  have key : ∀ q : Fin 14, (hugeDict[q.val].toNat / 16 = 6 ∨ hugeDict[q.val].toNat / 16 = 7) → q.val = 0 ∧ hugeDict[q.val] = 0x77 := by
    decide
  obtain ⟨hp, rfl⟩ := List.getElem?_eq_some_iff.mp h
  exact key ⟨p, hp⟩ hk

theorem hugeDict_groups : Groups [0xE4, 0x80, 0x80, 0x80, 0x80, 0x80, 0x80, 0x80, 0x80, 0x01] (2 ^ 63 + 100) :=
  .more (b := 0xE4) (by decide) <| .more (b := 0x80) (by decide) <| .more (b := 0x80) (by decide) <|
    .more (b := 0x80) (by decide) <| .more (b := 0x80) (by decide) <| .more (b := 0x80) (by decide) <|
    .more (b := 0x80) (by decide) <| .more (b := 0x80) (by decide) <| .more (b := 0x80) (by decide) <| .last (b := 0x01) (by decide)

theorem hugeArray_groups : Groups [0xE4, 0x80, 0x80, 0x80, 0x80, 0x80, 0x80, 0x80, 0x80, 0x02] (2 ^ 64 + 100) :=
  .more (b := 0xE4) (by decide) <| .more (b := 0x80) (by decide) <| .more (b := 0x80) (by decide) <|
    .more (b := 0x80) (by decide) <| .more (b := 0x80) (by decide) <| .more (b := 0x80) (by decide) <|
    .more (b := 0x80) (by decide) <| .more (b := 0x80) (by decide) <| .more (b := 0x80) (by decide) <| .last (b := 0x02) (by decide)

/-- **C70, refuted for builds without overflow checks**: they say that 200 elements do not fit, where there are none; a dict
announces 2^63 + 100 entries. -/
theorem C70_refuted_release : fromBytes ⟨hugeDict, 0, false⟩ = .err (.arrayOutOfBounds 200 2 2) ∧
    ¬ Fault hugeDict 0 (.arrayOutOfBounds 200 2 2) ∧ Announces hugeDict 0 true false (2 ^ 63 + 100) 12 := by
  refine ⟨by decide +kernel, ?_, .long (b0 := 0x77) (b1 := 0xFF) rfl rfl rfl rfl rfl ⟨[0x80, 0x06], rfl⟩ hugeDict_groups⟩
  intro h
  generalize he : DecodeError.arrayOutOfBounds 200 2 2 = x at h
  cases h with
  | @array p n first e dict w ha =>
    injection he with q1 q2 q3
    have kind : ∀ b0 : UInt8, (b0.toNat / 16 = if dict then 7 else 6) → b0.toNat / 16 = 6 ∨ b0.toNat / 16 = 7 := by
      intro b0 h; rw [h]; split <;> simp
    cases ha with
    | short h0 h1 k wd lt =>
      obtain ⟨rfl, rfl⟩ := hugeDict_header h0 (kind _ k)
      cases h1
      revert lt; decide
    | @long b0 b1 g _ h0 h1 k wd eq here num =>
      obtain ⟨rfl, rfl⟩ := hugeDict_header h0 (kind _ k)
      obtain ⟨_, hn⟩ := groups_unique num hugeDict_groups here ⟨[0x80, 0x06], rfl⟩
      subst hn
      cases dict
      · cases k
      · revert q1; decide
  | _ => cases he

/-- **C70, what the number in the error is** (both builds): an array that announces 2^64 + 100 elements is said to have 100. -/
theorem C70_refuted_count : Announces hugeArray 0 false false (2 ^ 64 + 100) 12 ∧
    ∀ dbg, fromBytes ⟨hugeArray, 0, dbg⟩ = .err (.arrayOutOfBounds 100 2 2) :=
  ⟨.long (b0 := 0x67) (b1 := 0xFF) rfl rfl rfl rfl rfl ⟨[0x80, 0x06], rfl⟩ hugeArray_groups, by decide +kernel⟩

/-- The errors, each of a document. -/
example : fromBytes ⟨[], 0, true⟩ = .err .inputIncorrectlySized ∧
    fromBytes ⟨[0x00, 0x00, 0x00, 0x00], 0, true⟩ = .err .rootNotPointer ∧
    fromBytes ⟨[0x80, 0x01, 0x80, 0x01], 0, true⟩ = .err (.pointerTooSmall 2 4) ∧
    fromBytes ⟨[0x80, 0x00], 0, true⟩ = .err .pointerOffsetZero ∧
    fromBytes ⟨[0x00, 0x00, 0x80, 0x02], 4096, true⟩ = .err (.pointerTargetOutOfBounds 4096 4094 4) ∧
    fromBytes ⟨[0x60, 0x03, 0x00, 0x00, 0x80, 0x02], 0, true⟩ = .err (.arrayOutOfBounds 3 2 4) ∧
    fromBytes ⟨[0x17, 0x00, 0x80, 0x01], 0, true⟩ = .err (.valueOutOfBounds .int 9 4) ∧
    arrayFromBytes ⟨[0x30, 0x00], 0, true⟩ = .err .isNotArray := by decide +kernel

end Fleece.Props
