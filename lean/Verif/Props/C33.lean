import Verif.Props.C31
import Verif.Props.C03
import Verif.Props.C04

/-!
# C33 Scalars stored in mutable collections read back unchanged

Full claim: every scalar. It is false for signed numbers outside -2048..2047 and for `u64` with high and low zero bytes;
`C33_exact_partial` says exactly for which scalars it is true.
-/

namespace Fleece.Props
open Fleece Res

/-- What the user sees of a scalar stored in a slot: `x` as it was. -/
def ReadsBack (dbg : Bool) (F : FloatOps) (x : Scalar) : Prop :=
  ∃ s, Slot.new dbg x = .ok s ∧ ∀ base, s.shape dbg base F = .ok (.value (x.tree F))

/-- Bound on strings and data that holds for everything in memory. -/
def Scalar.InMemory : Scalar → Prop
  | .str s => s.bytes.length < 2 ^ 63
  | .data d => d.length < 2 ^ 63
  | _ => True

theorem slot_reads {dbg : Bool} {F : FloatOps} {x : Item} {s : Slot} {t : Tree} {bs : List UInt8} {ty : ValueType}
    (hsz : x.size ≤ 15) (hw : x.writeTo dbg 15 false = .ok (some bs)) (hb : ScalarBytes F bs ty t)
    (hs : Slot.ofItem dbg x = .ok s) : s.shape dbg 0 F = .ok (.value t) := by
  unfold Slot.ofItem at hs
  rw [if_pos (show x.size ≤ Slot.inlineCapacity from hsz)] at hs
  simp only [Slot.inlineCapacity, hw, ok_bind, pure_eq] at hs
  cases hs
  simp only [Slot.shape, Slot.value, reads_padded hb _ 0, ok_bind, pure_eq]

/-- Signed numbers: 16 bits are looked at. -/
theorem signed_slot {dbg : Bool} {F : FloatOps} {x : Scalar} {n : Int} (hx : x.signed = some n) (h : ReadsBack dbg F x) :
    ShortRange n := by
  obtain ⟨s, h1, h2⟩ := h
  have h2 := h2 0
  have hsz : (Item.scalar x).size ≤ 15 := by
    cases x <;> simp only [Scalar.signed, reduceCtorEq] at hx <;> simp [Item.size, Scalar.size]
  have htr : x.tree F = .int n := by
    cases x <;> simp only [Scalar.signed, reduceCtorEq, Option.some.injEq] at hx <;> simp [Scalar.tree, hx]
  have h16 : ∀ k : Int, -2 ^ 15 ≤ k → k < 2 ^ 15 → Int.bmod k (2 ^ 16) = k := fun k a b =>
    Int.bmod_eq_of_le (by omega) (by omega)
  have hwr : ∃ is16 : Bool, (Item.scalar x).writeTo dbg 15 false = writeSigned 3 is16 n 15 false ∧
      (is16 = true → Int.bmod n (2 ^ 16) = n) := by
    cases x with
    | i8 k =>
      simp only [Scalar.signed, Option.some.injEq] at hx
      have a := k.le_toInt; have b := k.toInt_lt
      exact ⟨true, by simp [Item.writeTo, Scalar.writeTo, hx, Scalar.depth], fun _ => h16 n (by omega) (by omega)⟩
    | i16 k =>
      simp only [Scalar.signed, Option.some.injEq] at hx
      have a := k.le_toInt; have b := k.toInt_lt
      exact ⟨true, by simp [Item.writeTo, Scalar.writeTo, hx, Scalar.depth], fun _ => h16 n (by omega) (by omega)⟩
    | i32 k =>
      simp only [Scalar.signed, Option.some.injEq] at hx
      exact ⟨false, by simp [Item.writeTo, Scalar.writeTo, hx, Scalar.depth], by simp⟩
    | i64 k =>
      simp only [Scalar.signed, Option.some.injEq] at hx
      exact ⟨false, by simp [Item.writeTo, Scalar.writeTo, hx, Scalar.depth], by simp⟩
    | _ => simp [Scalar.signed] at hx
  obtain ⟨is16, hwr, hb⟩ := hwr
  by_cases hr : ShortRange (Int.bmod n (2 ^ 16))
  · have hk : ∃ bs ty, writeSigned 3 is16 n 15 false = .ok (some bs) ∧ ScalarBytes F bs ty (.int (Int.bmod n (2 ^ 16))) := by
      cases is16 with
      | true =>
        have := hb rfl
        rw [this] at hr ⊢
        obtain ⟨bs, ty, g1, _, g3, _⟩ := writeSigned16_ok (F := F) hr (buf := 15) (by omega) 2
        exact ⟨bs, ty, g1, g3⟩
      | false =>
        obtain ⟨bs, ty, g1, _, g3, _⟩ := writeSigned16_ok (F := F) hr (buf := 15) (by omega) 1
        exact ⟨bs, ty, by rw [writeSigned64_eq]; exact g1, g3⟩
    obtain ⟨bs, ty, g1, g2⟩ := hk
    have := slot_reads hsz (hwr.trans g1) g2 h1
    rw [this, htr] at h2
    simp only [Res.ok.injEq, Glimpse.value.injEq, Tree.int.injEq] at h2
    rw [h2] at hr; exact hr
  · exfalso
    have := C03_signed_diverges 3 is16 n 15 false hr hb
    unfold Slot.new Slot.ofItem at h1
    rw [if_pos (show (Item.scalar x).size ≤ Slot.inlineCapacity from hsz)] at h1
    simp only [Slot.inlineCapacity, hwr, this] at h1
    cases h1

/-- `u64`: the bytes that are dropped at the wrong end must be zero. -/
theorem u64_slot {dbg : Bool} {F : FloatOps} {n : UInt64} (h : ReadsBack dbg F (.u64 n)) (hn : 2047 < n.toNat) :
    WordKept n.toNat := by
  obtain ⟨s, h1, h2⟩ := h
  have h2 := h2 0
  have h64 := n.toNat_lt
  rw [wordKept_iff (by omega) h64]
  have hus : u64Size n.toNat ≤ 15 := by unfold u64Size; split <;> omega
  have hwr : ∀ buf, (Item.scalar (.u64 n)).writeTo dbg buf false = writeU64Big dbg n.toNat buf := by
    intro buf; simp only [Item.writeTo, Scalar.writeTo, writeU64]; rw [if_neg (by omega)]
  rcases Nat.lt_or_ge (dropped n.toNat) 8 with hd | hd
  · obtain ⟨bs, ty, g1, g2, g3⟩ := writeU64Big_ok (F := F) dbg hn h64 hd hus
    have := slot_reads (x := .scalar (.u64 n)) hus ((hwr 15).trans g1) g3 h1
    rw [this] at h2
    simp only [Scalar.tree, Res.ok.injEq, Glimpse.value.injEq, Tree.int.injEq] at h2
    have hlt : n.toNat % 256 ^ (8 - dropped n.toNat) < 256 ^ (8 - dropped n.toNat) := Nat.mod_lt _ (Nat.pow_pos (by omega))
    omega
  · exfalso
    have hd' : dropped n.toNat = 8 := Nat.le_antisymm (dropped_le (by omega) h64) hd
    have hs1 : u64Size n.toNat = 1 := by
      unfold u64Size; rw [if_neg (by omega)]; unfold dropped at hd'; omega
    unfold Slot.new Slot.ofItem at h1
    rw [if_pos (show (Item.scalar (.u64 n)).size ≤ Slot.inlineCapacity from hus)] at h1
    simp only [hwr, writeU64Big, hs1, Slot.inlineCapacity] at h1
    rw [if_neg (by omega)] at h1
    cases dbg with
    | true => cases h1
    | false =>
      simp only [Nat.sub_self, if_true, Bool.false_eq_true, if_false, ok_bind, pure_eq] at h1
      cases h1
      have : Slot.shape false 0 F (.inline ([0xFF] ++ List.replicate (15 - [(0xFF : UInt8)].length) 0)) = .panic := rfl
      rw [this] at h2; cases h2

/-- **C33, exactly.** A scalar put into a mutable collection reads back unchanged if and only if it is `Kept`: every string
and data (inline or boxed, the bound holds of everything in memory), float, bool, null, undefined, every `i8`, `u8`, `u16`
and `u32`, and of the others the signed numbers from -2048 to 2047, the `u64` up to 2047 or `WordKept`. -/
theorem C33_exact_partial (dbg : Bool) (F : FloatOps) (x : Scalar) (hm : Scalar.InMemory x) : ReadsBack dbg F x ↔ x.Kept := by
  constructor
  · intro h
    cases x with
    | i16 n => exact signed_slot (n := n.toInt) rfl h
    | i32 n => exact signed_slot (n := n.toInt) rfl h
    | i64 n => exact signed_slot (n := n.toInt) rfl h
    | u64 n =>
      show n.toNat ≤ 2047 ∨ WordKept n.toNat
      rcases Nat.lt_or_ge 2047 n.toNat with hn | hn
      · exact .inr (u64_slot h hn)
      · exact .inl hn
    | str s => exact hm
    | data d => exact hm
    | _ => trivial
  · intro h
    obtain ⟨s, h1, h2⟩ := Scalar.slot_ok (dbg := dbg) (F := F) (K := fun _ => True) h
    exact ⟨s, h1, fun base => h2.shape base⟩

/-- **C33 is false of the code**: 5000 overflows the stack, 65541 reads 5, 2³² · 4096 + 4096 reads something else. -/
theorem C33_refuted (dbg : Bool) (F : FloatOps) : ¬ ReadsBack dbg F (.i64 5000) ∧ ¬ ReadsBack dbg F (.i32 65541) ∧
    ¬ ReadsBack dbg F (.u64 0xFF00000000001000) := by
  refine ⟨?_, ?_, ?_⟩ <;> rw [C33_exact_partial dbg F _ (by trivial)]
  · show ¬ ShortRange _; decide
  · show ¬ ShortRange _; decide
  · rintro (h | h)
    · revert h; decide
    · have := h 12 (by decide); revert this; decide

/-- **C33 in a collection.** Pushed to an array, a `Kept` scalar is what `get` then gives, at every address. -/
theorem C33_pushed (dbg : Bool) (F : FloatOps) (x : Scalar) (hx : x.Kept) (base : Nat) : ∃ s : Slot,
    (Prog.put .array [] .push (.scalar x) : Prog Empty).eval dbg Empty.elim = .ok s ∧
      s.answer dbg base F [] (.at (.idx 0)) = .ok (.at (some (.value (x.tree F)))) := by
  obtain ⟨s, h1, h2⟩ := (C31 dbg F (Prog.put .array [] .push (.scalar x)) ⟨trivial, hx⟩).2 (.arr [.leaf (x.tree F)]) rfl
  obtain ⟨a, h3, h4⟩ := h2 base [] (.at (.idx 0))
  refine ⟨s, h1, h3.trans ?_⟩
  have : (Node.arr [.leaf (x.tree F)]).answer [] (.at (.idx 0)) = .at (some (.value (x.tree F))) := rfl
  rw [this] at h4
  cases a <;> simp_all [Answer.Same]

/-- 14 bytes of data are stored inline, 15 are boxed; both are `Kept`, as is the `u64` 2³² + 1. -/
example : Scalar.Kept (.data (List.replicate 14 7)) ∧ Scalar.Kept (.data (List.replicate 15 7)) ∧
    (Slot.new true (.data (List.replicate 14 7)) = .ok (.inline (0x5E :: List.replicate 14 7))) ∧
    (Slot.new true (.data (List.replicate 15 7)) = .ok (.boxed (0x5F :: 15 :: List.replicate 15 7))) ∧
    Scalar.Kept (.u64 0x100000001) := by
  refine ⟨by show List.length _ < _; simp, by show List.length _ < _; simp, rfl, rfl, .inr ?_⟩
  rw [wordKept_iff (by decide) (by decide)]
  decide

end Fleece.Props
